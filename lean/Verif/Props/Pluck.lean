import Verif.Spec.Pluck
import Verif.Props.CombFloat
import Verif.Props.ChainFloat
import Verif.Props.LimitCycle

/-!
# C125: a filter in the feedback path of a delay line (plucked strings)
-/

namespace Rasp
open FloatOps

section general
variable {σ τ T : Type} [Processor σ T] [Processor τ T] {b : Build}

/-- A damped loop is a loop of the line, together with a response of the filter. -/
theorem dampedLoop_iff {next : σ → Res (σ × T)} {c : T → T → T} {s : σ} {p : τ} {x u v w r : ℕ → T} :
    DampedLoop b next c s p x u v w r ↔
      FeedbackLoop b next (fun a _ => a) s u u v r ∧ Responds b p v w ∧ ∀ n, u n = c (x n) (w n) := by
  constructor
  · rintro ⟨st, mid, ft, h0, hf, h⟩
    exact ⟨⟨st, mid, h0, fun n => ⟨(h n).1, rfl, (h n).2.2.2⟩⟩, ⟨ft, hf, fun n => (h n).2.1⟩, fun n => (h n).2.2.1⟩
  · rintro ⟨⟨st, mid, h0, h⟩, ⟨ft, hf, hft⟩, hu⟩
    exact ⟨st, mid, ft, h0, hf, fun n => ⟨(h n).1, hft n, hu n, (h n).2.2⟩⟩

theorem damped_exists {next : σ → Res (σ × T)} (Good : σ → Prop)
    (step : ∀ s, Good s → ∃ mid w, next s = .ok (mid, w) ∧ ∀ z, ∃ s' y, Processor.process b mid z = .ok (s', y) ∧ Good s')
    (hp : NeverPanics τ (T := T)) {s : σ} (hs : Good s) (c : T → T → T) (p : τ) (x : ℕ → T) :
    ∃ u v w r, DampedLoop b next c s p x u v w r := by
  have : Nonempty T := let ⟨_, w, _⟩ := step s hs; ⟨w⟩
  have : Nonempty σ := ⟨s⟩
  choose! mid w hn s' y hpr hg using step
  choose ft' o ho using hp b
  let S : ℕ → σ × τ := fun n => Nat.rec (s, p) (fun k t => (s' t.1 (c (x k) (o t.2 (w t.1))), ft' t.2 (w t.1))) n
  have key : ∀ n, Good (S n).1 := by
    intro n
    induction n with
    | zero => exact hs
    | succ n ih => exact hg _ ih _
  exact ⟨fun n => c (x n) (o (S n).2 (w (S n).1)), fun n => w (S n).1, fun n => o (S n).2 (w (S n).1), _, fun n => (S n).1,
    fun n => mid (S n).1, fun n => (S n).2, rfl, rfl, fun n => ⟨hn _ (key n), ho _ _, rfl, hpr _ (key n) _⟩⟩

/-- Outputs depend only on the inputs so far. -/
theorem Responds.sofar {s : σ} {x x' y y' : ℕ → T} (h : Responds b s x y) (h' : Responds b s x' y') (n : ℕ) (hx : ∀ k ≤ n, x k = x' k) :
    y n = y' n := by
  obtain ⟨st, h0, hs⟩ := h
  obtain ⟨st', h0', hs'⟩ := h'
  have key : ∀ k ≤ n, st k = st' k := by
    intro k
    induction k with
    | zero => intro _; rw [h0, h0']
    | succ k ih =>
      intro hk
      have h1 := hs k
      rw [ih (by omega), hx k (by omega), hs' k] at h1
      exact (Prod.mk.inj (Except.ok.inj h1)).1.symm
  have h1 := hs n
  rw [key n le_rfl, hx n le_rfl, hs' n] at h1
  exact (Prod.mk.inj (Except.ok.inj h1)).2.symm

end general

/-! ## The equation of the loop -/

section loop
variable {τ T : Type} [FloatOps T] [Processor τ T] {b : Build}

/-- **C125**. A new `Delay` and any filter `p` in a loop, in any arithmetic and with any way `c` of adding the input: the loop runs
forever, and its streams are exactly those with `v` the processed samples `e` rounds ago, `w` the response of the filter to `v`,
and `u[n] = c(x[n], w[n])`. As in C92, `e` is the clipped delay, and the number of slots if that is 0. -/
theorem C125_loop [Target] {d m : ℕ} (hm : Allocatable T m) (hp : NeverPanics τ (T := T)) (p : τ) (c : T → T → T) (x : ℕ → T) :
    ∃ s : Delay T, Delay.new b d m = .ok s ∧ (∃ u v w r, DampedLoop b Delay.announce c s p x u v w r) ∧
      ∀ u v w r, DampedLoop b Delay.announce c s p x u v w r ↔
        v = lag u (if min d m = 0 then m + 1 else min d m) ∧ Responds b p v w ∧ (∀ n, u n = c (x n) (w n)) ∧ r = lag u (min d m) := by
  obtain ⟨s, hn, hi, he, -⟩ := Delay.new_spec (b := b) (d := d) hm
  obtain ⟨s', hn', -, hiff⟩ := C92_delay (b := b) (d := d) hm (fun a _ => a) x
  obtain rfl := Except.ok.inj (hn.symm.trans hn')
  refine ⟨s, hn, damped_exists (fun s => s.Inv ∧ s.Eff (min d m)) (fun s hs => ?_) hp ⟨hi, he⟩ c p x, fun u v w r => ?_⟩
  · obtain ⟨y, hy, -⟩ := Delay.nextOut_spec hs.1 hs.2
    refine ⟨s, y, by unfold Delay.announce; rw [hy, Res.ok_bind], fun z => ?_⟩
    obtain ⟨s', r, hp, hi, hee, -⟩ := Delay.process_spec (b := b) hs.1 hs.2 z
    exact ⟨s', r, hp, hi, hee⟩
  · obtain ⟨s', hn', -, hiff⟩ := C92_delay (b := b) (d := d) hm (fun a _ => a) u
    obtain rfl := Except.ok.inj (hn.symm.trans hn')
    rw [dampedLoop_iff, hiff]
    constructor
    · rintro ⟨h1, h2, h3⟩
      exact ⟨funext fun n => (h1 n).1, h2, h3, funext fun n => (h1 n).2.2⟩
    · rintro ⟨rfl, h2, h3, rfl⟩
      exact ⟨fun n => ⟨rfl, rfl, rfl⟩, h2, h3⟩

end loop

/-- **C125**. The same with a new `LinearDelay` of (clipped) delay at least 1, in exact arithmetic. -/
theorem C125_linear_loop [Target] {τ : Type} [Processor τ ℝ] {b : Build} {m : ℕ} (hm : Allocatable ℝ m) (hm1 : 1 ≤ m) {d : ℝ} (hd : 1 ≤ d)
    (hp : NeverPanics τ (T := ℝ)) (p : τ) (c : ℝ → ℝ → ℝ) (x : ℕ → ℝ) :
    ∃ s : LinearDelay ℝ ℝ, LinearDelay.new b d m = .ok s ∧ (∃ u v w r, DampedLoop b (LinearDelay.nextOut b) c s p x u v w r) ∧
      ∀ u v w r, DampedLoop b (LinearDelay.nextOut b) c s p x u v w r ↔
        v = interp (min d m) [] u ∧ Responds b p v w ∧ (∀ n, u n = c (x n) (w n)) ∧ r = v := by
  obtain ⟨s, hn, -, -⟩ := C92_linearDelay (b := b) hm hm1 hd (fun a _ => a) x
  refine ⟨s, hn, damped_exists (fun t => LinearDelay.Reachable b t) (fun t ht => ?_) hp (.new hm hn) c p x, fun u v w r => ?_⟩
  · obtain ⟨⟨mid, o⟩, h1⟩ := C24_never_panics_real ht (op := .nextOut) trivial
    have h1' := h1
    simp only [LinearDelay.step, Res.bind_ok] at h1
    obtain ⟨⟨mid', w⟩, h1, h2⟩ := h1
    cases h2
    have hmid : LinearDelay.Reachable b mid' := .step ht (op := .nextOut) trivial h1'
    refine ⟨mid', w, h1, fun z => ?_⟩
    obtain ⟨⟨s', o⟩, h3⟩ := C24_never_panics_real hmid (op := .process z) trivial
    have h3' := h3
    simp only [LinearDelay.step, Res.bind_ok] at h3
    obtain ⟨⟨s'', y⟩, h3, h4⟩ := h3
    cases h4
    exact ⟨s'', y, h3, .step hmid (op := .process z) trivial h3'⟩
  · obtain ⟨s', hn', -, hiff⟩ := C92_linearDelay (b := b) hm hm1 hd (fun a _ => a) u
    obtain rfl := Except.ok.inj (hn.symm.trans hn')
    rw [dampedLoop_iff, hiff]
    constructor
    · rintro ⟨h1, h2, h3⟩
      exact ⟨funext fun n => (h1 n).1, h2, h3, funext fun n => (h1 n).2.2⟩
    · rintro ⟨rfl, h2, h3, rfl⟩
      exact ⟨fun n => ⟨rfl, rfl, rfl⟩, h2, h3⟩


/-! ## Averages of the past -/

section averages
open Filter Topology
variable {K e : ℕ} {h : ℕ → ℝ} {x u : ℕ → ℝ}

theorem sum_lag_succ (φ : ℝ → ℝ) (u : ℕ → ℝ) (k n : ℕ) :
    ∑ j ∈ Finset.range k, φ (lag u j (n + 1)) = ∑ j ∈ Finset.range k, φ (lag u j n) + (φ (u (n + 1)) - φ (lag u k (n + 1))) := by
  induction k with
  | zero => simp [lag]
  | succ k ih => rw [Finset.sum_range_succ, Finset.sum_range_succ, ih, lag_succ_succ]; ring

/-- Everything on the way: the weighted sum of `φ` of the samples in the loop. -/
noncomputable def inLoop (K : ℕ) (h : ℕ → ℝ) (φ : ℝ → ℝ) (u : ℕ → ℝ) (n : ℕ) : ℝ :=
  ∑ k ∈ Finset.range (K + 1), h k * ∑ j ∈ Finset.range k, φ (lag u j n)

theorem inLoop_succ (hs : ∑ k ∈ Finset.range (K + 1), h k = 1) (φ : ℝ → ℝ) (u : ℕ → ℝ) (n : ℕ) :
    inLoop K h φ u (n + 1) = inLoop K h φ u n + (φ (u (n + 1)) - ∑ k ∈ Finset.range (K + 1), h k * φ (lag u k (n + 1))) := by
  unfold inLoop
  simp only [sum_lag_succ φ u, mul_add, mul_sub, Finset.sum_add_distrib, Finset.sum_sub_distrib]
  rw [← Finset.sum_mul, hs, one_mul]

theorem inLoop_zero (h0 : h 0 = 0) (hs : ∑ k ∈ Finset.range (K + 1), h k = 1) (u : ℕ → ℝ) : inLoop K h id u 0 = u 0 := by
  unfold inLoop
  have : ∀ k, h k * ∑ j ∈ Finset.range k, id (lag u j 0) = h k * u 0 := by
    intro k
    cases k with
    | zero => rw [h0]; simp
    | succ k =>
      rw [Finset.sum_range_succ', Finset.sum_eq_zero (fun j _ => by unfold lag; rw [if_neg (by omega)]; rfl)]
      simp [lag]
  rw [Finset.sum_congr rfl fun k _ => this k, ← Finset.sum_mul, hs, one_mul]

/-- The sum of what is in the loop is the sum of what came in. -/
theorem inLoop_sum (h0 : h 0 = 0) (hs : ∑ k ∈ Finset.range (K + 1), h k = 1)
    (hu : ∀ n, u n = x n + ∑ k ∈ Finset.range (K + 1), h k * lag u k n) (n : ℕ) :
    inLoop K h id u n = ∑ k ∈ Finset.range (n + 1), x k := by
  induction n with
  | zero =>
    rw [inLoop_zero h0 hs, hu 0, Finset.sum_range_one, Finset.sum_eq_zero, add_zero]
    intro k _
    cases k with
    | zero => rw [h0, zero_mul]
    | succ k => unfold lag; rw [if_neg (by omega)]; exact mul_zero _
  | succ n ih =>
    rw [inLoop_succ hs, ih, Finset.sum_range_succ (n := n + 1)]
    have := hu (n + 1)
    simp only [id] at *
    linarith

/-- The energy in the loop falls by the variance of what is averaged. -/
theorem inLoop_energy (hs : ∑ k ∈ Finset.range (K + 1), h k = 1)
    (hu : ∀ n, u n = x n + ∑ k ∈ Finset.range (K + 1), h k * lag u k n) {n : ℕ} (hx : x (n + 1) = 0) :
    inLoop K h (· ^ 2) u (n + 1) = inLoop K h (· ^ 2) u n - ∑ k ∈ Finset.range (K + 1), h k * (lag u k (n + 1) - u (n + 1)) ^ 2 := by
  rw [inLoop_succ hs]
  have h1 := hu (n + 1)
  rw [hx, zero_add] at h1
  have h2 : ∑ k ∈ Finset.range (K + 1), h k * (lag u k (n + 1) - u (n + 1)) ^ 2 =
      ∑ k ∈ Finset.range (K + 1), h k * lag u k (n + 1) ^ 2 - 2 * u (n + 1) * ∑ k ∈ Finset.range (K + 1), h k * lag u k (n + 1) +
        u (n + 1) ^ 2 * ∑ k ∈ Finset.range (K + 1), h k := by
    rw [Finset.mul_sum, Finset.mul_sum, ← Finset.sum_sub_distrib, ← Finset.sum_add_distrib]
    exact Finset.sum_congr rfl fun k _ => by ring
  rw [h2, hs, ← h1]
  ring

theorem inLoop_nonneg (hh : ∀ k, 0 ≤ h k) (u : ℕ → ℝ) (n : ℕ) : 0 ≤ inLoop K h (· ^ 2) u n :=
  Finset.sum_nonneg fun k _ => mul_nonneg (hh k) (Finset.sum_nonneg fun _ _ => sq_nonneg _)

theorem settles (hh : ∀ k, 0 ≤ h k) (h0 : h 0 = 0) (hs : ∑ k ∈ Finset.range (K + 1), h k = 1) (he : e + 1 ≤ K) (he0 : 0 < h e) (he1 : 0 < h (e + 1))
    (hu : ∀ n, u n = x n + ∑ k ∈ Finset.range (K + 1), h k * lag u k n) :
    SettlesEvenly (∑ k ∈ Finset.range (K + 1), k * h k) K x u := by
  intro N hx
  constructor
  · -- the energy converges, so its losses die away
    have hloss : Tendsto (fun n => inLoop K h (· ^ 2) u n - inLoop K h (· ^ 2) u (n + 1)) atTop (𝓝 0) := by
      have hanti : Antitone fun n => inLoop K h (· ^ 2) u (N + n) := by
        refine antitone_nat_of_succ_le fun n => ?_
        rw [← add_assoc, inLoop_energy hs hu (hx _ (by omega))]
        have := Finset.sum_nonneg (s := Finset.range (K + 1)) (f := fun k => h k * (lag u k (N + n + 1) - u (N + n + 1)) ^ 2)
          fun k _ => mul_nonneg (hh k) (sq_nonneg _)
        linarith
      have hconv := tendsto_atTop_ciInf hanti ⟨0, by rintro _ ⟨n, rfl⟩; exact inLoop_nonneg hh u _⟩
      have h1 := hconv.sub (hconv.comp (tendsto_add_atTop_nat 1))
      rw [sub_self] at h1
      rw [← tendsto_add_atTop_iff_nat N]
      refine h1.congr fun n => ?_
      simp only [Function.comp]
      rw [show n + N = N + n by omega, ← add_assoc]
    have hlag : ∀ k, k ≤ K → 0 < h k → Tendsto (fun n => lag u k n - u n) atTop (𝓝 0) := by
      intro k hk hpos
      rw [← tendsto_add_atTop_iff_nat 1]
      have h2 : Tendsto (fun n => (inLoop K h (· ^ 2) u n - inLoop K h (· ^ 2) u (n + 1)) / h k) atTop (𝓝 0) := by
        simpa using hloss.div_const (h k)
      have h3 : Tendsto (fun n => (lag u k (n + 1) - u (n + 1)) ^ 2) atTop (𝓝 0) := by
        refine squeeze_zero' (Eventually.of_forall fun n => sq_nonneg _) ?_ h2
        filter_upwards [eventually_ge_atTop N] with n hn
        rw [le_div_iff₀ hpos, inLoop_energy hs hu (hx _ (by omega))]
        have := Finset.single_le_sum (f := fun k => h k * (lag u k (n + 1) - u (n + 1)) ^ 2)
          (fun k _ => mul_nonneg (hh k) (sq_nonneg _)) (Finset.mem_range.mpr (show k < K + 1 by omega))
        linarith
      have h4 := h3.sqrt
      rw [Real.sqrt_zero] at h4
      exact (tendsto_zero_iff_abs_tendsto_zero _).mpr (h4.congr fun n => Real.sqrt_sq_eq_abs _)
    -- neighbours come together
    have hnext : Tendsto (fun n => u (n + 1) - u n) atTop (𝓝 0) := by
      have h1 := (hlag e (by omega) he0).sub (hlag (e + 1) he he1)
      rw [sub_self] at h1
      have h2 := (tendsto_add_atTop_iff_nat (e + 1)).mpr h1
      refine h2.congr fun n => ?_
      unfold lag
      rw [if_pos (by omega), if_pos (by omega), show n + (e + 1) - e = n + 1 by omega, show n + (e + 1) - (e + 1) = n by omega]
      ring
    have hall : ∀ j, Tendsto (fun n => lag u j n - u n) atTop (𝓝 0) := by
      intro j
      induction j with
      | zero => exact tendsto_const_nhds.congr fun n => by simp [lag]
      | succ j ih =>
        rw [← tendsto_add_atTop_iff_nat 1]
        have := ih.sub hnext
        rw [sub_self] at this
        refine this.congr fun n => ?_
        rw [lag_succ_succ]; ring
    -- so all that is in the loop is the same
    have hl : 0 < ∑ k ∈ Finset.range (K + 1), k * h k := by
      have := Finset.single_le_sum (f := fun k : ℕ => (k : ℝ) * h k) (fun k _ => mul_nonneg (Nat.cast_nonneg k) (hh k))
        (Finset.mem_range.mpr (show e + 1 < K + 1 by omega))
      refine lt_of_lt_of_le ?_ this
      have : (0 : ℝ) < (e + 1 : ℕ) := by positivity
      positivity
    have hdiff : Tendsto (fun n => inLoop K h id u n - (∑ k ∈ Finset.range (K + 1), k * h k) * u n) atTop (𝓝 0) := by
      have h1 : Tendsto (fun n => ∑ k ∈ Finset.range (K + 1), h k * ∑ j ∈ Finset.range k, (lag u j n - u n)) atTop (𝓝 0) := by
        have := tendsto_finsetSum (Finset.range (K + 1)) fun k _ =>
          (tendsto_finsetSum (Finset.range k) fun j _ => hall j).const_mul (h k)
        simpa using this
      refine h1.congr fun n => ?_
      unfold inLoop
      rw [Finset.sum_mul, ← Finset.sum_sub_distrib]
      refine Finset.sum_congr rfl fun k _ => ?_
      simp only [id, Finset.sum_sub_distrib, Finset.sum_const, Finset.card_range, nsmul_eq_mul]
      ring
    have hS : ∀ n, N ≤ n → inLoop K h id u n = ∑ k ∈ Finset.range N, x k := by
      intro n hn
      rw [inLoop_sum h0 hs hu]
      refine (Finset.sum_subset (Finset.range_mono (by omega)) fun k _ hk => hx k ?_).symm
      simpa using hk
    have h5 := (hdiff.neg.const_add (∑ k ∈ Finset.range N, x k)).div_const (∑ k ∈ Finset.range (K + 1), k * h k)
    rw [neg_zero, add_zero] at h5
    refine h5.congr' ?_
    filter_upwards [eventually_ge_atTop N] with n hn
    rw [hS n hn]
    field_simp
    ring
  · intro n0 lo hi hn0 hw n
    induction n using Nat.strong_induction_on with
    | _ n ih =>
      intro hn
      have hpast : ∀ k, 1 ≤ k → k ≤ K → lo ≤ lag u k n ∧ lag u k n ≤ hi := by
        intro k hk hkK
        by_cases hc : n0 + k ≤ n
        · unfold lag
          rw [if_pos (by omega)]
          exact ih _ (by omega) (by omega)
        · obtain ⟨j, rfl⟩ := Nat.exists_eq_add_of_le hn
          have : ∀ j, j < k → lag u k (n0 + j) = lag u (k - j) n0 := by
            intro j hj
            unfold lag
            by_cases hc2 : k ≤ n0 + j
            · rw [if_pos hc2, if_pos (by omega)]; congr 1; omega
            · rw [if_neg hc2, if_neg (by omega)]
          rw [this j (by omega)]
          exact hw _ (by omega) (by omega)
      rw [hu n, hx n (by omega), zero_add]
      have hlo : ∑ k ∈ Finset.range (K + 1), h k * lo ≤ ∑ k ∈ Finset.range (K + 1), h k * lag u k n := by
        refine Finset.sum_le_sum fun k hk => ?_
        rcases Nat.eq_zero_or_pos k with rfl | hk0
        · rw [h0]; simp
        · exact mul_le_mul_of_nonneg_left (hpast k hk0 (by simpa [Nat.lt_succ_iff] using hk)).1 (hh k)
      have hhi : ∑ k ∈ Finset.range (K + 1), h k * lag u k n ≤ ∑ k ∈ Finset.range (K + 1), h k * hi := by
        refine Finset.sum_le_sum fun k hk => ?_
        rcases Nat.eq_zero_or_pos k with rfl | hk0
        · rw [h0]; simp
        · exact mul_le_mul_of_nonneg_left (hpast k hk0 (by simpa [Nat.lt_succ_iff] using hk)).2 (hh k)
      rw [← Finset.sum_mul, hs, one_mul] at hlo hhi
      exact ⟨hlo, hhi⟩

end averages


/-! ## Strings -/

section string
variable {b : Build} {x u v w r : ℕ → ℝ}

theorem sum_threeTaps (K e : ℕ) (he : e + 2 ≤ K) (a c t : ℝ) (y : ℕ → ℝ) :
    ∑ k ∈ Finset.range (K + 1), y k * (if k = e then a else if k = e + 1 then c else if k = e + 2 then t else 0) =
      a * y e + c * y (e + 1) + t * y (e + 2) := by
  have : ∀ k, y k * (if k = e then a else if k = e + 1 then c else if k = e + 2 then t else 0) =
      (if k = e then a * y e else 0) + (if k = e + 1 then c * y (e + 1) else 0) + (if k = e + 2 then t * y (e + 2) else 0) := by
    intro k
    by_cases h1 : k = e
    · subst h1; simp; ring
    · by_cases h2 : k = e + 1
      · subst h2; simp; ring
      · by_cases h3 : k = e + 2
        · subst h3; simp; ring
        · simp [h1, h2, h3]
  simp only [this, Finset.sum_add_distrib, Finset.sum_ite_eq', Finset.mem_range]
  rw [if_pos (by omega), if_pos (by omega), if_pos (by omega)]

theorem lag_lag_one (u : ℕ → ℝ) (k n : ℕ) : lag (lag u k) 1 n = lag u (k + 1) n := by
  unfold lag
  by_cases h : k + 1 ≤ n
  · rw [if_pos (by omega), if_pos (by omega), if_pos h]; congr 1; omega
  · rw [if_neg h]
    split_ifs <;> first | omega | rfl

/-- Three neighbouring taps with weights `a`, `c`, `t`. -/
theorem settles_three {e : ℕ} {a c t : ℝ} (he : 1 ≤ e) (ha : 0 < a) (hc : 0 < c) (ht : 0 ≤ t) (hs : a + c + t = 1)
    (hu : ∀ n, u n = x n + (a * lag u e n + c * lag u (e + 1) n + t * lag u (e + 2) n)) : SettlesEvenly (e + c + 2 * t) (e + 2) x u := by
  have h := settles (K := e + 2) (e := e) (x := x) (u := u) (h := fun k => if k = e then a else if k = e + 1 then c else if k = e + 2 then t else 0)
    (fun k => by split_ifs <;> first | exact ha.le | exact hc.le | exact ht | exact le_rfl)
    (by rw [if_neg (by omega), if_neg (by omega), if_neg (by omega)])
    (by have := sum_threeTaps (e + 2) e le_rfl a c t fun _ => 1
        simp only [one_mul, mul_one] at this
        rw [this, hs])
    (by omega) (by simpa using ha) (by simpa using hc)
    (fun n => by
      have := sum_threeTaps (e + 2) e le_rfl a c t fun k => lag u k n
      rw [hu n, ← this]
      congr 1
      exact Finset.sum_congr rfl fun k _ => mul_comm _ _)
  rw [sum_threeTaps (e + 2) e le_rfl a c t fun k => (k : ℝ)] at h
  have e1 : a * (e : ℝ) + c * ((e + 1 : ℕ) : ℝ) + t * ((e + 2 : ℕ) : ℝ) = e + c + 2 * t := by
    push_cast
    rw [show a = 1 - c - t by linarith]; ring
  rwa [e1] at h

/-- **C125**. The plucked string: a `Delay` whose announced samples go through an averaging `OneZero` (positive coefficients of sum 1)
and back into the line, with any input `x`, in exact arithmetic. Once the input is over, no sample leaves the range of those in the
loop, the loop settles at a constant, the sum of the input divided by the length `d + b1` of the string, and in every round
the energy in the loop falls by exactly `b0 b1` times the square of a difference of neighbouring samples. -/
theorem C125_string [Target] {d m : ℕ} (hm : Allocatable ℝ m) (hd : 1 ≤ d) (hdm : d ≤ m) {p : OneZero ℝ} (h0 : 0 < p.b0) (h1 : 0 < p.b1)
    (hp : p.b0 + p.b1 = 1) {s : Delay ℝ} (hs : Delay.new b d m = .ok s)
    (hl : DampedLoop b Delay.announce (fun a c => a + c) s p.clear x u v w r) :
    SettlesEvenly (d + p.b1) (d + 2) x u ∧
    ∀ n, x (n + 1) = 0 → (∑ j ∈ Finset.range d, lag u j (n + 1) ^ 2) + p.b1 * lag u d (n + 1) ^ 2 =
      (∑ j ∈ Finset.range d, lag u j n ^ 2) + p.b1 * lag u d n ^ 2 - p.b0 * p.b1 * (lag u d (n + 1) - lag u d n) ^ 2 := by
  obtain ⟨s', hs', -, hiff⟩ := C125_loop (b := b) (d := d) hm (C03_filters_and_analysers_never_panic ℝ).2.1 p.clear (fun a c => a + c) x
  obtain rfl := Except.ok.inj (hs.symm.trans hs')
  rw [hiff, min_eq_left hdm, if_neg (by omega)] at hl
  obtain ⟨rfl, hw, hu, -⟩ := hl
  rw [C30_oneZero] at hw
  have key : ∀ n, u n = x n + (p.b0 * lag u d n + p.b1 * lag u (d + 1) n) := by
    intro n
    rw [hu, hw, lag_lag_one]; rfl
  constructor
  · have := settles_three (e := d) (t := 0) (x := x) (u := u) hd h0 h1 le_rfl (by linarith) fun n => by rw [key n]; ring
    simpa using this
  · intro n hx
    have e1 := sum_lag_succ (· ^ 2) u d n
    have e2 := key (n + 1)
    rw [hx, lag_succ_succ] at e2
    rw [e1, e2, show p.b0 = 1 - p.b1 by linarith]
    ring

/-- **C125**. The same with a `LinearDelay`, so that the string has any real length: it settles at the sum of the input divided
by `d + b1`. -/
theorem C125_linear_string [Target] {m : ℕ} (hm : Allocatable ℝ m) {d : ℝ} (hd : 1 ≤ d) (hdm : d ≤ m) {p : OneZero ℝ} (h0 : 0 < p.b0)
    (h1 : 0 < p.b1) (hp : p.b0 + p.b1 = 1) {s : LinearDelay ℝ ℝ} (hs : LinearDelay.new b d m = .ok s)
    (hl : DampedLoop b (LinearDelay.nextOut b) (fun a c => a + c) s p.clear x u v w r) :
    SettlesEvenly (d + p.b1) (⌊d⌋₊ + 2) x u := by
  have hm1 : 1 ≤ m := by exact_mod_cast hd.trans hdm
  obtain ⟨s', hs', -, hiff⟩ := C125_linear_loop (b := b) hm hm1 hd (C03_filters_and_analysers_never_panic ℝ).2.1 p.clear (fun a c => a + c) x
  obtain rfl := Except.ok.inj (hs.symm.trans hs')
  rw [hiff, min_eq_left hdm] at hl
  obtain ⟨rfl, hw, hu, -⟩ := hl
  rw [C30_oneZero] at hw
  have hfl := Nat.floor_le (by linarith : 0 ≤ d)
  have hfl2 := Nat.lt_floor_add_one d
  have hf1 : 1 ≤ ⌊d⌋₊ := Nat.one_le_floor_iff d |>.mpr hd
  obtain ⟨al, hal⟩ : ∃ al, al = d - ⌊d⌋₊ := ⟨_, rfl⟩
  have hin : interp d [] u = fun n => (1 - al) * lag u ⌊d⌋₊ n + al * lag u (⌊d⌋₊ + 1) n := by
    funext n
    have hd : ∀ k, delayedBy k ([] : List ℝ) u n = lag u k n := by
      intro k; unfold delayedBy lag; split_ifs <;> simp
    unfold interp
    rw [hd, hd, hal]
  have key : ∀ n, u n = x n + ((1 - al) * p.b0 * lag u ⌊d⌋₊ n + ((1 - al) * p.b1 + al * p.b0) * lag u (⌊d⌋₊ + 1) n +
      al * p.b1 * lag u (⌊d⌋₊ + 2) n) := by
    intro n
    have hlag : lag (interp d [] u) 1 n = (1 - al) * lag u (⌊d⌋₊ + 1) n + al * lag u (⌊d⌋₊ + 2) n := by
      cases n with
      | zero => simp [lag, real_zero]
      | succ n => rw [lag_one_succ, lag_succ_succ, lag_succ_succ, hin]
    rw [hu, hw, hlag, hin]
    simp only [real_add, real_mul]
    ring
  have h2 : 0 < 1 - al := by rw [hal]; linarith
  have h3 : 0 ≤ al := by rw [hal]; linarith
  have := settles_three hf1 (mul_pos h2 h0) (add_pos_of_pos_of_nonneg (mul_pos h2 h1) (mul_nonneg h3 h0.le)) (mul_nonneg h3 h1.le)
    (by rw [show p.b0 = 1 - p.b1 by linarith]; ring) key
  have e1 : (⌊d⌋₊ : ℝ) + ((1 - al) * p.b1 + al * p.b0) + 2 * (al * p.b1) = d + p.b1 := by
    rw [show p.b0 = 1 - p.b1 by linarith, show (⌊d⌋₊ : ℝ) = d - al by rw [hal]; ring]; ring
  rwa [e1] at this

/-! ## Any filter in the loop -/

variable {τ : Type} [Processor τ ℝ] {p : τ} {g G B : ℝ}

theorem damped_bounded (hG : GainAtMost b p G) (hg : |g| * G < 1) (hw : Responds b p v w) (hu : ∀ n, u n = x n + g * w n)
    (hv : ∀ n M, 0 ≤ M → (∀ j < n, |u j| ≤ M) → |v n| ≤ M) (hx : ∀ n, |x n| ≤ B) (n : ℕ) :
    |u n| ≤ B / (1 - |g| * G) ∧ |w n| ≤ G * (B / (1 - |g| * G)) := by
  have hB : 0 ≤ B := (abs_nonneg _).trans (hx 0)
  have hq : 0 < 1 - |g| * G := by linarith
  have hC : 0 ≤ B / (1 - |g| * G) := by positivity
  have hfix : B + |g| * (G * (B / (1 - |g| * G))) = B / (1 - |g| * G) := by field_simp; ring
  have hstep : ∀ n, (∀ j < n, |u j| ≤ B / (1 - |g| * G)) → |w n| ≤ G * (B / (1 - |g| * G)) := by
    intro n ih
    obtain ⟨w', hw'⟩ := hG.1 fun k => if k ≤ n then v k else 0
    have e1 : w n = w' n := hw.sofar hw' n fun k hk => (if_pos hk).symm
    rw [e1]
    refine hG.level hw' (fun k => ?_) n
    split_ifs with hk
    · exact hv k _ hC fun j hj => ih j (by omega)
    · simpa using hC
  have main : ∀ n, |u n| ≤ B / (1 - |g| * G) := by
    intro n
    induction n using Nat.strong_induction_on with
    | _ n ih =>
      rw [hu n]
      calc |x n + g * w n| ≤ |x n| + |g * w n| := abs_add_le _ _
        _ = |x n| + |g| * |w n| := by rw [abs_mul]
        _ ≤ B + |g| * (G * (B / (1 - |g| * G))) := add_le_add (hx n) (mul_le_mul_of_nonneg_left (hstep n ih) (abs_nonneg g))
        _ = _ := hfix
  exact ⟨main n, hstep n fun j _ => main j⟩

theorem lag_bounded {k : ℕ} (hk : 1 ≤ k) {u : ℕ → ℝ} (n : ℕ) (M : ℝ) (hM : 0 ≤ M) (h : ∀ j < n, |u j| ≤ M) : |lag u k n| ≤ M := by
  unfold lag
  split_ifs with hc
  · exact h _ (by omega)
  · simpa [real_zero] using hM

/-- **C125**. Any filter in the feedback path of either line, fed back with factor `g`, in exact arithmetic: if `|g|` times the
filter's peak gain `G` is below 1, the loop is stable, `|u| ≤ B / (1 - |g| G)` for inputs bounded by `B`. -/
theorem C125_gain [Target] {m : ℕ} (hm : Allocatable ℝ m) (hp : NeverPanics τ (T := ℝ)) (hG : GainAtMost b p G) (hg : |g| * G < 1)
    (hx : ∀ n, |x n| ≤ B) :
    (∀ (d : ℕ) (s : Delay ℝ), Delay.new b d m = .ok s → DampedLoop b Delay.announce (fun a c => a + g * c) s p x u v w r →
      ∀ n, |u n| ≤ B / (1 - |g| * G)) ∧
    (∀ (d : ℝ) (s : LinearDelay ℝ ℝ), 1 ≤ m → 1 ≤ d → LinearDelay.new b d m = .ok s →
      DampedLoop b (LinearDelay.nextOut b) (fun a c => a + g * c) s p x u v w r → ∀ n, |u n| ≤ B / (1 - |g| * G)) := by
  constructor
  · intro d s hs hl n
    obtain ⟨s', hs', -, hiff⟩ := C125_loop (b := b) (d := d) hm hp p (fun a c => a + g * c) x
    obtain rfl := Except.ok.inj (hs.symm.trans hs')
    obtain ⟨rfl, hw, hu, -⟩ := (hiff u v w r).mp hl
    exact (damped_bounded hG hg hw hu (lag_bounded (by split_ifs <;> omega)) hx n).1
  · intro d s hm1 hd hs hl n
    obtain ⟨s', hs', -, hiff⟩ := C125_linear_loop (b := b) hm hm1 hd hp p (fun a c => a + g * c) x
    obtain rfl := Except.ok.inj (hs.symm.trans hs')
    obtain ⟨rfl, hw, hu, -⟩ := (hiff u v w r).mp hl
    have hm1' : (1 : ℝ) ≤ m := by exact_mod_cast hm1
    exact (damped_bounded hG hg hw hu (fun n M hM h => interp_le (le_min hd hm1') hM h) hx n).1

end string

/-! ## Floating point -/

section ieee
open Fl
variable {f : Fmt} {L : Libm f} {b : Build}

/-- **C125**. Any filter in the feedback path of a `Delay`, in floating point against exact arithmetic: where `|g|` times the
filter's gain `G` is below 1 and nothing comes near overflow, all samples in the loop are finite and stay within one error bound
of the exact ones for ever, made of the rounding of one round and of the filter's own error `E`. -/
theorem C125_close [Target] {σ τ : Type} [Processor σ (Fl L)] [Processor τ ℝ] {p : σ} {q : τ} {d m : ℕ} (hm : Allocatable (Fl L) m)
    (hm' : Allocatable ℝ m) (hp : NeverPanics σ (T := Fl L)) (hq : NeverPanics τ (T := ℝ)) {g : Fl L} {X V W E G D : ℝ}
    (hE : 0 ≤ E) (hF : Follows b p q W E) (hG : GainAtMost b q G) (hgf : g.Finite) (hg1 : |g.toReal| < 1) (hgG : |g.toReal| * G < 1)
    (hD : D = (4 * f.u * V + 3 * f.tiny + |g.toReal| * E) / (1 - |g.toReal| * G)) (hXW : X / (1 - |g.toReal| * G) + D ≤ W)
    (hWV : G * W + E ≤ V) (hXV : X ≤ V) (hη : f.tiny ≤ V) (hov : 4 * V ≤ 2 ^ f.emax)
    {x u v w r : ℕ → Fl L} {z zv zw zr : ℕ → ℝ} (hx : ∀ n, (x n).Within X) {s : Delay (Fl L)} {s' : Delay ℝ} (hs : Delay.new b d m = .ok s)
    (hs' : Delay.new b d m = .ok s') (hl : DampedLoop b Delay.announce (fun a c => a +. (g *. c)) s p x u v w r)
    (hl' : DampedLoop b Delay.announce (fun a c => a + g.toReal * c) s' q (fun n => (x n).toReal) z zv zw zr) :
    StaysClose u z D := by
  obtain ⟨t, ht, -, hiff⟩ := C125_loop (b := b) (d := d) hm hp p (fun a c => a +. (g *. c)) x
  obtain rfl := Except.ok.inj (hs.symm.trans ht)
  obtain ⟨t', ht', -, hiff'⟩ := C125_loop (b := b) (d := d) hm' hq q (fun a c => a + g.toReal * c) fun n => (x n).toReal
  obtain rfl := Except.ok.inj (hs'.symm.trans ht')
  obtain ⟨hv, hw, hu, -⟩ := (hiff u v w r).mp hl
  obtain ⟨hv', hw', hu', -⟩ := (hiff' z zv zw zr).mp hl'
  obtain ⟨k, hk⟩ : ∃ k, k = if min d m = 0 then m + 1 else min d m := ⟨_, rfl⟩
  have hk1 : 1 ≤ k := by rw [hk]; split_ifs <;> omega
  rw [← hk] at hv hv'
  have hz := fun n => damped_bounded hG hgG hw' hu' (by rw [hv']; exact lag_bounded hk1) (fun n => (hx n).2) n
  have hX : 0 ≤ X := (abs_nonneg _).trans (hx 0).2
  have hq0 : 0 < 1 - |g.toReal| * G := by linarith
  have hZ : 0 ≤ X / (1 - |g.toReal| * G) := by positivity
  have ht0 := f.tiny_pos
  have hu0 := f.u_pos
  have hV : 0 ≤ V := ht0.le.trans hη
  have hG0 := hG.nonneg
  have hfix : 4 * f.u * V + 3 * f.tiny + |g.toReal| * (E + G * D) = D := by
    rw [hD]; field_simp; ring
  have hD0 : 0 ≤ D := by rw [hD]; positivity
  intro n
  induction n using Nat.strong_induction_on with
  | _ n ih =>
    have hvk : ∀ j ≤ n, (v j).Within W ∧ |(v j).toReal - zv j| ≤ D := by
      intro j hj
      obtain ⟨a1, a2⟩ := lag_within (k := k) (n := j) hD0 hk1 fun i hi => ih i (by omega)
      rw [hv, hv']
      refine ⟨⟨a1, ?_⟩, a2⟩
      have a3 := lag_bounded hk1 j _ hZ fun i _ => (hz i).1
      have := abs_sub_abs_le_abs_sub (lag u k j).toReal (lag z k j)
      linarith
    obtain ⟨y, y', hy, hy', hyy⟩ := hF (fun j => if j ≤ n then v j else zero) fun j => by
      split_ifs with hj
      · exact (hvk j hj).1
      · exact ⟨zero_finite, by rw [zero_toReal, _root_.abs_zero]; linarith⟩
    obtain ⟨yz, hyz⟩ := hG.1 fun j => if j ≤ n then zv j else 0
    have e1 : w n = y n := hw.sofar hy n fun j hj => (if_pos hj).symm
    have e2 : zw n = yz n := hw'.sofar hyz n fun j hj => (if_pos hj).symm
    have e3 := hG.2.2 _ _ _ _ D hy' hyz (fun j => by
      split_ifs with hj
      · exact (hvk j hj).2
      · rw [zero_toReal]; simpa using hD0) n
    obtain ⟨e4, e5⟩ := hyy n
    rw [← e1] at e4 e5
    rw [← e2] at e3
    have e6 : |(w n).toReal - zw n| ≤ E + G * D := by
      rw [show (w n).toReal - zw n = ((w n).toReal - y' n) + (y' n - zw n) by ring]
      exact (abs_add_le _ _).trans (add_le_add e5 e3)
    have e7 : |(w n).toReal| ≤ V := by
      have h1 := abs_sub_abs_le_abs_sub (w n).toReal (zw n)
      have h2 := (hz n).2
      have h3 := mul_le_mul_of_nonneg_left hXW hG0
      rw [mul_add] at h3
      linarith
    obtain ⟨c1, c2⟩ := comb_round (hx n) hgf ⟨e4, e7⟩ hXV hη hg1 hov
    rw [hu n]
    refine ⟨c1, ?_⟩
    rw [hu' n]
    have c3 : |g.toReal * (w n).toReal - g.toReal * zw n| ≤ |g.toReal| * (E + G * D) := by
      rw [← mul_sub, abs_mul]
      exact mul_le_mul_of_nonneg_left e6 (abs_nonneg _)
    rw [show (x n +. g *. w n).toReal - ((x n).toReal + g.toReal * zw n) =
      ((x n +. g *. w n).toReal - ((x n).toReal + g.toReal * (w n).toReal)) + (g.toReal * (w n).toReal - g.toReal * zw n) by ring]
    refine (abs_add_le _ _).trans ?_
    linarith

/-- `b0 a + b1 c` with both coefficients one half keeps a level that can be halved exactly. -/
theorem half_half {h a c : Fl L} {B : ℝ} (hf : h.Finite) (hh : h.toReal = 1 / 2) (hB : IsRep f B) (hB2 : IsRep f (B / 2)) (hlim : B < f.lim)
    (ha : a.Within B) (hc : c.Within B) : ((h *. a) +. (h *. c)).Within B := by
  have h0 : 0 ≤ B := (abs_nonneg _).trans ha.2
  have one : ∀ {a : Fl L}, a.Within B → (h *. a).Within (B / 2) := by
    intro a ha
    have h1 : |h.toReal * a.toReal| ≤ B / 2 := by
      rw [abs_mul, hh, abs_of_nonneg (by norm_num)]
      have := ha.2
      linarith
    obtain ⟨h2, h3⟩ := mul_val hf ha.1 (FP.noOvf_of_le hB2 (by linarith) h1)
    exact ⟨h2, by rw [h3]; exact abs_rnd_le_of_le hB2 h1⟩
  have h1 := one ha
  have h2 := one hc
  have h3 : |(h *. a).toReal + (h *. c).toReal| ≤ B := by
    have := abs_add_le (h *. a).toReal (h *. c).toReal
    have := h1.2
    have := h2.2
    linarith
  obtain ⟨h4, h5⟩ := add_val h1.1 h2.1 (FP.noOvf_of_le hB hlim h3)
  exact ⟨h4, by rw [h5]; exact abs_rnd_le_of_le hB h3⟩

/-- **C125**. The plucked string in floating point, with both coefficients one half and no further input from sample `N` on: rounding
never makes it louder than any level that can be halved exactly, and never makes it anything but finite, for ever. -/
theorem C125_level [Target] {d m : ℕ} (hm : Allocatable (Fl L) m) {p : OneZero (Fl L)} (h0 : p.b0.Finite) (hb0 : p.b0.toReal = 1 / 2)
    (h1 : p.b1 = p.b0) {B : ℝ} (hB : IsRep f B) (hB2 : IsRep f (B / 2)) (hlim : B < f.lim) {s : Delay (Fl L)} (hs : Delay.new b d m = .ok s)
    {x u v w r : ℕ → Fl L} (hl : DampedLoop b Delay.announce (fun a c => a +. c) s p.clear x u v w r) {N : ℕ}
    (hx : ∀ n, N ≤ n → (x n).Finite ∧ (x n).toReal = 0) (hu0 : 0 ≤ B) (hN : ∀ n < N, (u n).Within B) (n : ℕ) : (u n).Within B := by
  obtain ⟨t, ht, -, hiff⟩ := C125_loop (b := b) (d := d) hm (C03_filters_and_analysers_never_panic (Fl L)).2.1 p.clear (fun a c => a +. c) x
  obtain rfl := Except.ok.inj (hs.symm.trans ht)
  obtain ⟨hv, hw, hu, -⟩ := (hiff u v w r).mp hl
  obtain ⟨k, hk⟩ : ∃ k, k = if min d m = 0 then m + 1 else min d m := ⟨_, rfl⟩
  have hk1 : 1 ≤ k := by rw [hk]; split_ifs <;> omega
  rw [← hk] at hv
  rw [C30_oneZero] at hw
  induction n using Nat.strong_induction_on with
  | _ n ih =>
    rcases Nat.lt_or_ge n N with hn | hn
    · exact hN n hn
    · have hz : (zero : Fl L).Within B := ⟨zero_finite, by rw [zero_toReal]; simpa using hu0⟩
      have hv1 : ∀ j ≤ n, (v j).Within B := by
        intro j hj
        rw [hv]
        unfold lag
        split_ifs
        · exact ih _ (by omega)
        · exact hz
      have hv2 : (lag v 1 n).Within B := by
        unfold lag
        split_ifs
        · exact hv1 _ (by omega)
        · exact hz
      have := half_half h0 hb0 hB hB2 hlim (hv1 n le_rfl) hv2
      rw [hu n, hw n, h1]
      have h2 := add_val (hx n hn).1 this.1 (by rw [(hx n hn).2, zero_add]; exact noOvf_toReal _)
      rw [(hx n hn).2, zero_add, rnd_of_isRep (isRep_toReal _)] at h2
      exact ⟨h2.1, by rw [h2.2]; exact this.2⟩

end ieee

/-! ## Cycles -/

section cycle
variable {τ T : Type} [FloatOps T] [Processor τ T] {b : Build}

instance [Finite T] : Finite (OnePole T) :=
  Finite.of_injective (fun s => (s.y_z1, s.b0, s.a1)) fun s t h => by cases s; cases t; simp_all

instance [Finite T] : Finite (OneZero T) :=
  Finite.of_injective (fun s => (s.x_z1, s.output, s.b0, s.b1)) fun s t h => by cases s; cases t; simp_all

instance [Finite T] : Finite (TwoPole T) :=
  Finite.of_injective (fun s => (s.y_z1, s.y_z2, s.b0, s.a1, s.a2)) fun s t h => by cases s; cases t; simp_all

instance [Finite T] : Finite (TwoZero T) :=
  Finite.of_injective (fun s => (s.x_z1, s.x_z2, s.output, s.b0, s.b1, s.b2)) fun s t h => by cases s; cases t; simp_all

/-- **C125**. Where the samples and the states of the filter are finitely many, as in floating point, the loop ends in an exact cycle
for every periodic input, whatever the filter and the way of adding the input. -/
theorem C125_cycle [Target] [Finite T] [Finite τ] {d m : ℕ} (hm : Allocatable T m) (hp : NeverPanics τ (T := T)) {p : τ} {c : T → T → T}
    {s : Delay T} (hs : Delay.new b d m = .ok s) {N : ℕ} (hN : 0 < N) {x u v w r : ℕ → T} (hx : Repeats N x)
    (hl : DampedLoop b Delay.announce c s p x u v w r) :
    ∃ M j, 0 < j ∧ M + j ≤ m + 1 + Nat.card T ^ (m + 1) * Nat.card τ ∧
      ∀ n, M * N ≤ n → u (n + j * N) = u n ∧ v (n + j * N) = v n ∧ w (n + j * N) = w n := by
  obtain ⟨t, ht, -, hiff⟩ := C125_loop (b := b) (d := d) hm hp p c x
  obtain rfl := Except.ok.inj (hs.symm.trans ht)
  obtain ⟨hv, ⟨ft, -, hft⟩, hu, -⟩ := (hiff u v w r).mp hl
  obtain ⟨k, hk⟩ : ∃ k, k = if min d m = 0 then m + 1 else min d m := ⟨_, rfl⟩
  have hk1 : 1 ≤ k := by rw [hk]; split_ifs <;> omega
  have hkm : k ≤ m + 1 := by rw [hk]; split_ifs <;> omega
  rw [← hk] at hv
  have hxk : ∀ n i, x (n + i * N) = x n := by
    intro n i
    induction i with
    | zero => simp
    | succ i ih => rw [add_mul, one_mul, ← add_assoc, hx, ih]
  let key : ℕ → (Fin (m + 1) → T) × τ := fun i => (fun a => u (i * N - 1 - a), ft (i * N))
  have main : ∀ i j : ℕ, m + 1 ≤ i → i < j → key i = key j → ∀ n, i * N ≤ n →
      u (n + (j - i) * N) = u n ∧ v (n + (j - i) * N) = v n ∧ w (n + (j - i) * N) = w n := by
    intro i j hi hij he n hn
    have hiN : i ≤ i * N := Nat.le_mul_of_pos_right i hN
    have hjN : j * N = i * N + (j - i) * N := by rw [← add_mul]; congr 1; omega
    obtain ⟨he1, he2⟩ := Prod.mk.inj he
    have hpast : ∀ a, a ≤ m → u (i * N - 1 - a + (j - i) * N) = u (i * N - 1 - a) := by
      intro a ha
      have := congrFun he1 ⟨a, by omega⟩
      simp only at this
      rw [this, hjN]
      congr 1
      omega
    have all : ∀ t, ft (i * N + t + (j - i) * N) = ft (i * N + t) ∧ ∀ y, i * N - (m + 1) ≤ y → y < i * N + t → u (y + (j - i) * N) = u y := by
      intro t
      induction t with
      | zero =>
        refine ⟨by rw [add_zero, he2, hjN], fun y h1 h2 => ?_⟩
        have := hpast (i * N - 1 - y) (by omega)
        rwa [show i * N - 1 - (i * N - 1 - y) = y by omega] at this
      | succ t ih =>
        obtain ⟨ih1, ih2⟩ := ih
        have hv1 : v (i * N + t + (j - i) * N) = v (i * N + t) := by
          rw [hv]
          unfold lag
          rw [if_pos (by omega), if_pos (by omega), show i * N + t + (j - i) * N - k = i * N + t - k + (j - i) * N by omega]
          exact ih2 _ (by omega) (by omega)
        have h1 := hft (i * N + t + (j - i) * N)
        rw [ih1, hv1, hft (i * N + t)] at h1
        obtain ⟨h2, h3⟩ := Prod.mk.inj (Except.ok.inj h1)
        refine ⟨by rw [show i * N + (t + 1) + (j - i) * N = i * N + t + (j - i) * N + 1 by omega, ← h2]; rfl, fun y h4 h5 => ?_⟩
        rcases Nat.lt_or_ge y (i * N + t) with h6 | h6
        · exact ih2 y h4 h6
        · obtain rfl : y = i * N + t := by omega
          rw [hu, hu, hxk, ← h3]
    obtain ⟨t, rfl⟩ := Nat.exists_eq_add_of_le hn
    obtain ⟨a1, a2⟩ := all (t + 1)
    obtain ⟨a3, a4⟩ := all t
    have hv1 : v (i * N + t + (j - i) * N) = v (i * N + t) := by
      rw [hv]
      unfold lag
      rw [if_pos (by omega), if_pos (by omega), show i * N + t + (j - i) * N - k = i * N + t - k + (j - i) * N by omega]
      exact a2 _ (by omega) (by omega)
    have h1 := hft (i * N + t + (j - i) * N)
    rw [a3, hv1, hft (i * N + t)] at h1
    exact ⟨a2 _ (by omega) (by omega), hv1, (Prod.mk.inj (Except.ok.inj h1)).2.symm⟩
  obtain ⟨C, hC⟩ : ∃ C, C = Nat.card T ^ (m + 1) * Nat.card τ := ⟨_, rfl⟩
  have hcard : Nat.card ((Fin (m + 1) → T) × τ) = C := by
    rw [hC, Nat.card_prod, Nat.card_fun, Nat.card_fin]
  have : Fintype ((Fin (m + 1) → T) × τ) := Fintype.ofFinite _
  have hlt : Fintype.card ((Fin (m + 1) → T) × τ) < Fintype.card (Fin (C + 1)) := by
    rw [Fintype.card_fin, ← Nat.card_eq_fintype_card]; omega
  obtain ⟨i, j, hij, he⟩ := Fintype.exists_ne_map_eq_of_card_lt (fun i : Fin (C + 1) => key (m + 1 + i)) hlt
  rw [← hC]
  rcases lt_or_gt_of_ne (fun h => hij (Fin.ext h) : i.val ≠ j.val) with h | h
  · exact ⟨m + 1 + i, m + 1 + j - (m + 1 + i), by omega, by omega, main _ _ (by omega) (by omega) he⟩
  · exact ⟨m + 1 + j, m + 1 + i - (m + 1 + j), by omega, by omega, main _ _ (by omega) (by omega) he.symm⟩

end cycle

/-! Non-vacuity. -/

/-- A string of length 2 + 1/2 that is plucked once settles at 2/5 of the pluck. -/
example [Target] {b : Build} (hm : Allocatable ℝ 4) : ∃ (s : Delay ℝ) (u v w r : ℕ → ℝ), Delay.new b 2 4 = .ok s ∧
    DampedLoop b Delay.announce (fun a c => a + c) s (OneZero.clear (⟨0, 0, 1 / 2, 1 / 2⟩ : OneZero ℝ)) (fun n => if n = 0 then 1 else 0) u v w r ∧
    Filter.Tendsto u Filter.atTop (nhds (2 / 5)) := by
  obtain ⟨s, hs, ⟨u, v, w, r, hl⟩, -⟩ := C125_loop (b := b) (d := 2) hm (C03_filters_and_analysers_never_panic ℝ).2.1
    (OneZero.clear (⟨0, 0, 1 / 2, 1 / 2⟩ : OneZero ℝ)) (fun a c => a + c) fun n => if n = 0 then (1 : ℝ) else 0
  refine ⟨s, u, v, w, r, hs, hl, ?_⟩
  have := ((C125_string (b := b) (p := ⟨0, 0, 1 / 2, 1 / 2⟩) hm (by norm_num) (by norm_num) (by norm_num) (by norm_num) (by norm_num) hs hl).1 1
    (fun n hn => if_neg (by omega))).1
  convert this using 2
  norm_num

/-- A smoother in a loop with factor 1/2, in single precision. -/
example {L : Libm binary32} (b : Build) : ∃ (p : OnePole (Fl L)) (g : Fl L), Follows b p p.exact 1 (1793 * 2 ^ (-24 : ℤ)) ∧ GainAtMost b p.exact 1 ∧
    g.Finite ∧ |g.toReal| = 1 / 2 ∧
    (1 / 4) / (1 - |g.toReal| * 1) + (4 * binary32.u * 2 + 3 * binary32.tiny + |g.toReal| * (1793 * 2 ^ (-24 : ℤ))) / (1 - |g.toReal| * 1) ≤ 1 ∧
    1 * 1 + (1793 * 2 ^ (-24 : ℤ) : ℝ) ≤ 2 ∧ 4 * 2 ≤ (2 : ℝ) ^ binary32.emax := by
  have h1 : (1 / 2 : ℝ) = 2 ^ (-1 : ℤ) := by norm_num
  obtain ⟨v, hv, e⟩ := Fl.exists_of_isRep L (v := 1 / 2) (by rw [h1]; exact isRep_two_zpow (by decide)) (by unfold Fmt.lim; norm_num [binary32])
  have e' : |v.toReal| = 1 / 2 := by rw [e]; norm_num
  refine ⟨⟨zero, v, neg v⟩, v, ?_, ?_, hv, e', ?_, by norm_num, by norm_num [binary32]⟩
  · have hQ : errGain (|v.toReal| + |(neg v).toReal|) (1 / 2) 0 = 4 := by
      unfold errGain; rw [Fl.neg_toReal, e]; norm_num [abs_of_pos]
    have key := C73_onePole (s := ⟨zero, v, neg v⟩) (X := 1) (p := 1 / 2) hv (Fl.neg_finite.mpr hv) ⟨Fl.zero_finite, by simp⟩
      ⟨by rw [Fl.neg_toReal, e]; norm_num, by simp, by norm_num, by simp⟩
      (by rw [hQ]; exact ⟨by norm_num [binary32], by simp only [Fmt.tiny, binary32]; norm_num⟩)
    rw [hQ] at key
    refine (key.le ?_).follows b
    simp only [errBound, Fmt.u, Fmt.tiny, binary32]
    norm_num
  · have e2 : OnePole.exact ⟨zero, v, neg v⟩ = OnePole.clear ⟨0, 1 / 2, -(1 / 2)⟩ := by
      unfold OnePole.exact; rw [Fl.neg_toReal, Fl.zero_toReal, e]; rfl
    rw [e2]
    refine C112_gain_filter ((C30_cleared_solve_difference_equation.1 ⟨0, 1 / 2, -(1 / 2)⟩).isConvolution b) ?_
    have := (C107_filters b).2.2.1 ⟨0, 1 / 2, -(1 / 2)⟩ (by norm_num [abs_of_pos])
    convert this using 1
    norm_num [abs_of_pos]
  · rw [e']
    simp only [Fmt.u, Fmt.tiny, binary32]
    norm_num

/-- Levels that can be halved: 1, in single precision. -/
example : IsRep binary32 1 ∧ IsRep binary32 (1 / 2) ∧ (1 : ℝ) < binary32.lim :=
  ⟨by simpa using isRep_two_zpow (f := binary32) (e := 0) (by decide), by
    have := isRep_two_zpow (f := binary32) (e := -1) (by decide)
    norm_num at this ⊢
    exact this, by unfold Fmt.lim; norm_num [binary32]⟩

end Rasp
