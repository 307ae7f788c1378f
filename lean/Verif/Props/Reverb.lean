import Verif.Spec.Reverb
import Verif.Props.CombFloat
import Verif.Lemmas.WindowError
import Mathlib.Analysis.SpecialFunctions.Pow.Real
import Mathlib.Algebra.GCDMonoid.Nat

/-!
# C157: reverberators of comb and all-pass loops
-/

namespace Rasp
open FloatOps Fl
variable {f : Fmt} {L : Libm f} {b : Build}

theorem Echo.one_le_period {T : Type} (e : Echo T) : 1 ≤ e.period := by
  unfold Echo.period
  split_ifs <;> omega

/-! ## Existence and uniqueness, in any arithmetic -/

section any
variable {T : Type} [FloatOps T]

theorem combLoop_iff [Target] {e : Echo T} (hm : Allocatable T e.m) (x u : ℕ → T) :
    CombLoop b e x u ↔ ∀ n, u n = x n +. (e.g *. lag u e.period n) := by
  obtain ⟨s, hn, ⟨u', v', r', hl'⟩, hi⟩ := C92_delay (b := b) (d := e.d) hm (fun x v => x +. (e.g *. v)) x
  constructor
  · rintro ⟨s', v, r, hn', hl⟩ n
    rw [hn] at hn'
    cases hn'
    have := (hi u v r).1 hl n
    rw [this.2.1, this.1]
    rfl
  · intro h
    refine ⟨s, lag u e.period, lag u (min e.d e.m), hn, (hi _ _ _).2 fun n => ⟨rfl, h n, rfl⟩⟩

theorem combLoop_exists [Target] {e : Echo T} (hm : Allocatable T e.m) (x : ℕ → T) : ∃ u, CombLoop b e x u := by
  obtain ⟨s, hn, ⟨u, v, r, hl⟩, -⟩ := C92_delay (b := b) (d := e.d) hm (fun x v => x +. (e.g *. v)) x
  exact ⟨u, s, v, r, hn, hl⟩

theorem comb_unique {k : ℕ} (hk : 1 ≤ k) (c : T → T → T) {x u u' : ℕ → T} (h : ∀ n, u n = c (x n) (lag u k n))
    (h' : ∀ n, u' n = c (x n) (lag u' k n)) : u = u' := by
  funext n
  induction n using Nat.strong_induction_on with
  | _ n ih =>
    rw [h, h']
    congr 1
    unfold lag
    split_ifs
    · exact ih _ (by omega)
    · rfl

theorem combLoop_unique [Target] {e : Echo T} (hm : Allocatable T e.m) {x u u' : ℕ → T} (h : CombLoop b e x u) (h' : CombLoop b e x u') : u = u' :=
  comb_unique e.one_le_period (fun x v => x +. (e.g *. v)) ((combLoop_iff hm x u).1 h) ((combLoop_iff hm x u').1 h')

theorem allPassLoop_iff [Target] {e : Echo T} (hm : Allocatable T e.m) (x y : ℕ → T) :
    AllPassLoop b e x y ↔ ∃ u, CombLoop b e x u ∧ ∀ n, y n = lag u e.period n -. (e.g *. u n) := by
  obtain ⟨s, hn, -, hi⟩ := C92_delay (b := b) (d := e.d) hm (fun x v => x +. (e.g *. v)) x
  constructor
  · rintro ⟨s', u, v, r, hn', hl, hy⟩
    rw [hn] at hn'
    cases hn'
    refine ⟨u, ⟨s, v, r, hn, hl⟩, fun n => ?_⟩
    rw [hy, ((hi u v r).1 hl n).1]
    rfl
  · rintro ⟨u, ⟨s', v, r, hn', hl⟩, hy⟩
    rw [hn] at hn'
    cases hn'
    refine ⟨s, u, v, r, hn, hl, fun n => ?_⟩
    rw [hy, ((hi u v r).1 hl n).1]
    rfl

theorem allPassLoop_exists [Target] {e : Echo T} (hm : Allocatable T e.m) (x : ℕ → T) : ∃ y, AllPassLoop b e x y := by
  obtain ⟨u, hu⟩ := combLoop_exists (b := b) hm x
  exact ⟨_, (allPassLoop_iff hm x _).2 ⟨u, hu, fun n => rfl⟩⟩

theorem allPassLoop_unique [Target] {e : Echo T} (hm : Allocatable T e.m) {x y y' : ℕ → T} (h : AllPassLoop b e x y) (h' : AllPassLoop b e x y') :
    y = y' := by
  obtain ⟨u, hu, hy⟩ := (allPassLoop_iff hm x y).1 h
  obtain ⟨u', hu', hy'⟩ := (allPassLoop_iff hm x y').1 h'
  have := combLoop_unique hm hu hu'
  subst this
  funext n
  rw [hy, hy']

theorem combBank_exists [Target] {cs : List (Echo T)} (hm : ∀ e ∈ cs, Allocatable T e.m) (x : ℕ → T) : ∃ y, CombBank b cs x y := by
  induction cs with
  | nil => exact ⟨_, .nil x⟩
  | cons e es ih =>
    obtain ⟨y, hy⟩ := ih fun e he => hm e (List.mem_cons_of_mem _ he)
    obtain ⟨u, hu⟩ := combLoop_exists (b := b) (hm e List.mem_cons_self) x
    exact ⟨_, .cons hu hy⟩

theorem combBank_unique [Target] {cs : List (Echo T)} (hm : ∀ e ∈ cs, Allocatable T e.m) {x y y' : ℕ → T} (h : CombBank b cs x y)
    (h' : CombBank b cs x y') : y = y' := by
  induction cs generalizing y y' with
  | nil => cases h; cases h'; rfl
  | cons e es ih =>
    cases h with
    | cons hu hy =>
      cases h' with
      | cons hu' hy' =>
        rw [combLoop_unique (hm e List.mem_cons_self) hu hu', ih (fun e he => hm e (List.mem_cons_of_mem _ he)) hy hy']

theorem allPassChain_exists [Target] {as : List (Echo T)} (hm : ∀ e ∈ as, Allocatable T e.m) (x : ℕ → T) : ∃ y, AllPassChain b as x y := by
  induction as generalizing x with
  | nil => exact ⟨_, .nil x⟩
  | cons e es ih =>
    obtain ⟨u, hu⟩ := allPassLoop_exists (b := b) (hm e List.mem_cons_self) x
    obtain ⟨y, hy⟩ := ih (fun e he => hm e (List.mem_cons_of_mem _ he)) u
    exact ⟨_, .cons hu hy⟩

theorem allPassChain_unique [Target] {as : List (Echo T)} (hm : ∀ e ∈ as, Allocatable T e.m) {x y y' : ℕ → T} (h : AllPassChain b as x y)
    (h' : AllPassChain b as x y') : y = y' := by
  induction as generalizing x with
  | nil => cases h; cases h'; rfl
  | cons e es ih =>
    cases h with
    | cons hu hy =>
      cases h' with
      | cons hu' hy' =>
        have := allPassLoop_unique (hm e List.mem_cons_self) hu hu'
        subst this
        exact ih (fun e he => hm e (List.mem_cons_of_mem _ he)) hy hy'

/-- **C157.** In any arithmetic, a reverberator of any number of comb and all-pass loops answers every input with exactly one output: no
loop ever panics, and the answer does not depend on anything but the settings and the input. -/
theorem C157_runs [Target] {cs as : List (Echo T)} (hc : ∀ e ∈ cs, Allocatable T e.m) (ha : ∀ e ∈ as, Allocatable T e.m) (x : ℕ → T) :
    ∃! y, Reverberates b cs as x y := by
  obtain ⟨w, hw⟩ := combBank_exists (b := b) hc x
  obtain ⟨y, hy⟩ := allPassChain_exists (b := b) ha w
  refine ⟨y, ⟨w, hw, hy⟩, ?_⟩
  rintro y' ⟨w', hw', hy'⟩
  have := combBank_unique hc hw hw'
  subst this
  exact allPassChain_unique ha hy' hy

end any

/-! ## Exact arithmetic -/

theorem combBank_impulse [Target] {cs : List (Echo ℝ)} (hm : ∀ e ∈ cs, Allocatable ℝ e.m) {w : ℕ → ℝ} (h : CombBank b cs unitImpulse w) (n : ℕ) :
    w n = (cs.map fun e => if e.period ∣ n then e.g ^ (n / e.period) else 0).sum := by
  induction cs generalizing w with
  | nil => cases h; simp [real_zero]
  | cons e es ih =>
    cases h with
    | @cons _ _ _ u y hu hy =>
      rw [List.map_cons, List.sum_cons, ← ih (fun e he => hm e (List.mem_cons_of_mem _ he)) hy,
        ← comb_impulse e.one_le_period (u := u) ((combLoop_iff (hm e List.mem_cons_self) _ u).1 hu) n]
      rfl

/-- **C157.** The impulse response of the comb part: the echoes of all loops on top of each other. -/
theorem C157_echoes [Target] {cs : List (Echo ℝ)} (hm : ∀ e ∈ cs, Allocatable ℝ e.m) {w : ℕ → ℝ} (h : CombBank b cs unitImpulse w) :
    ∀ n, w n = (cs.map fun e => if e.period ∣ n then e.g ^ (n / e.period) else 0).sum := combBank_impulse hm h

/-- **C157.** The reverberation time: with the gains `10^(-3k/R)`, `k` being the period of the loop, the answer to an impulse is, at sample
`n`, `10^(-3n/R)` times the number of loops that have an echo there. It falls by 60 dB in `R` samples, at the same rate in all loops. -/
theorem C157_reverberation_time [Target] {cs : List (Echo ℝ)} (hm : ∀ e ∈ cs, Allocatable ℝ e.m) {R : ℝ}
    (hg : ∀ e ∈ cs, e.g = 10 ^ (-3 * e.period / R : ℝ)) {w : ℕ → ℝ} (h : CombBank b cs unitImpulse w) (n : ℕ) :
    w n = (cs.countP fun e => e.period ∣ n) * 10 ^ (-3 * n / R : ℝ) := by
  rw [combBank_impulse hm h n]
  clear h hm
  induction cs with
  | nil => simp
  | cons e es ih =>
    rw [List.map_cons, List.sum_cons, ih fun e he => hg e (List.mem_cons_of_mem _ he), List.countP_cons]
    by_cases hd : e.period ∣ n
    · obtain ⟨q, rfl⟩ := hd
      have hp : 0 < e.period := e.one_le_period
      simp only [dvd_mul_right, if_true, decide_true]
      rw [Nat.mul_div_cancel_left q hp, hg e List.mem_cons_self, ← Real.rpow_natCast, ← Real.rpow_mul (by norm_num)]
      push_cast
      rw [show -3 * (e.period : ℝ) / R * q = -3 * (e.period * q) / R by ring]
      ring
    · simp only [hd, if_false, decide_false]
      simp

theorem echo_product {k l : ℕ} (hk : 1 ≤ k) (hl : 1 ≤ l) (g h : ℝ) (n : ℕ) :
    (if k ∣ n then g ^ (n / k) else 0) * (if l ∣ n then h ^ (n / l) else 0) =
      if k.lcm l ∣ n then (g ^ (k.lcm l / k) * h ^ (k.lcm l / l)) ^ (n / k.lcm l) else 0 := by
  have hL : 0 < k.lcm l := Nat.lcm_pos hk hl
  by_cases hd : k.lcm l ∣ n
  · have h1 : k ∣ n := (Nat.dvd_lcm_left k l).trans hd
    have h2 : l ∣ n := (Nat.dvd_lcm_right k l).trans hd
    rw [if_pos hd, if_pos h1, if_pos h2, mul_pow, ← pow_mul, ← pow_mul]
    rw [Nat.div_mul_div_comm (Nat.dvd_lcm_left k l) hd, Nat.div_mul_div_comm (Nat.dvd_lcm_right k l) hd,
      mul_comm k, mul_comm l, Nat.mul_div_mul_left _ _ hL, Nat.mul_div_mul_left _ _ hL]
  · rw [if_neg hd]
    by_cases h1 : k ∣ n
    · have h2 : ¬ l ∣ n := fun h2 => hd (Nat.lcm_dvd h1 h2)
      rw [if_neg h2, mul_zero]
    · rw [if_neg h1, zero_mul]

theorem hasSum_echo {k : ℕ} (hk : 1 ≤ k) {q : ℝ} (hq : |q| < 1) : HasSum (fun n => if k ∣ n then q ^ (n / k) else 0) (1 - q)⁻¹ := by
  have h := hasSum_geometric_of_abs_lt_one hq
  have hi : Function.Injective fun j : ℕ => k * j := fun i j hij => Nat.eq_of_mul_eq_mul_left hk hij
  refine (hi.hasSum_iff ?_).1 ?_
  · intro n hn
    rw [if_neg]
    rintro ⟨j, rfl⟩
    exact hn ⟨j, rfl⟩
  · convert h using 2 with j
    show (if k ∣ k * j then q ^ (k * j / k) else 0) = q ^ j
    rw [if_pos (dvd_mul_right k j), Nat.mul_div_cancel_left j hk]

theorem list_sq_sum (l : List ℝ) : l.sum ^ 2 = (l.map fun a => (l.map fun c => a * c).sum).sum := by
  have : ∀ (l' : List ℝ), (l'.map fun a => (l.map fun c => a * c).sum).sum = l'.sum * l.sum := by
    intro l'
    induction l' with
    | nil => simp
    | cons a as ih =>
      rw [List.map_cons, List.sum_cons, ih, List.sum_cons, List.sum_map_mul_left]
      simp [add_mul]
  rw [this, sq]

theorem hasSum_list {ι : Type} (l : List ι) {F : ι → ℕ → ℝ} {S : ι → ℝ} (h : ∀ i ∈ l, HasSum (F i) (S i)) :
    HasSum (fun n => (l.map fun i => F i n).sum) (l.map S).sum := by
  induction l with
  | nil => simp
  | cons i is ih =>
    simp only [List.map_cons, List.sum_cons]
    exact (h i List.mem_cons_self).add (ih fun j hj => h j (List.mem_cons_of_mem _ hj))

/-- **C157.** The energy of the impulse response of the comb part, as a sum over pairs of loops; two loops meet at the common multiples of
their periods. -/
theorem C157_energy [Target] {cs : List (Echo ℝ)} (hm : ∀ e ∈ cs, Allocatable ℝ e.m) (hg : ∀ e ∈ cs, |e.g| < 1) {w : ℕ → ℝ}
    (h : CombBank b cs unitImpulse w) :
    HasSum (fun n => w n ^ 2) (cs.map fun e => (cs.map fun e' =>
      (1 - e.g ^ (e.period.lcm e'.period / e.period) * e'.g ^ (e.period.lcm e'.period / e'.period))⁻¹).sum).sum := by
  have hw : (fun n => w n ^ 2) = fun n => (cs.map fun e => (cs.map fun e' =>
      (if e.period.lcm e'.period ∣ n then (e.g ^ (e.period.lcm e'.period / e.period) * e'.g ^ (e.period.lcm e'.period / e'.period)) ^
        (n / e.period.lcm e'.period) else 0 : ℝ)).sum).sum := by
    funext n
    rw [combBank_impulse hm h n, list_sq_sum, List.map_map]
    congr 1
    refine List.map_congr_left fun e _ => ?_
    simp only [Function.comp_apply, List.map_map]
    congr 1
    refine List.map_congr_left fun e' _ => ?_
    exact echo_product e.one_le_period e'.one_le_period _ _ n
  rw [hw]
  refine hasSum_list cs fun e he => hasSum_list cs fun e' he' => ?_
  have hL : 0 < e.period.lcm e'.period := Nat.lcm_pos e.one_le_period e'.one_le_period
  refine hasSum_echo hL ?_
  rw [abs_mul, abs_pow, abs_pow]
  have h1 : |e.g| ^ (e.period.lcm e'.period / e.period) < 1 := by
    refine pow_lt_one₀ (abs_nonneg _) (hg e he) ?_
    have := Nat.div_pos (Nat.le_of_dvd hL (Nat.dvd_lcm_left e.period e'.period)) e.one_le_period
    omega
  have h2 : |e'.g| ^ (e.period.lcm e'.period / e'.period) ≤ 1 := pow_le_one₀ (abs_nonneg _) (hg e' he').le
  exact mul_lt_one_of_nonneg_of_lt_one_left (pow_nonneg (abs_nonneg _) _) h1 h2

theorem comb_of_combLoop [Target] {e : Echo ℝ} (hm : Allocatable ℝ e.m) {x u : ℕ → ℝ} (h : CombLoop b e x u) : Comb e.g e.period x u :=
  (combLoop_iff hm x u).1 h

/-- **C157.** The all-pass part keeps the energy of everything that has finite energy. -/
theorem C157_allpass_energy [Target] {as : List (Echo ℝ)} (hm : ∀ e ∈ as, Allocatable ℝ e.m) (hg : ∀ e ∈ as, |e.g| < 1) {x y : ℕ → ℝ}
    (h : AllPassChain b as x y) {S : ℝ} (hx : HasSum (fun n => x n ^ 2) S) : HasSum (fun n => y n ^ 2) S := by
  induction as generalizing x with
  | nil => cases h; exact hx
  | cons e es ih =>
    cases h with
    | @cons _ _ _ u _ hu hy =>
      refine ih (fun e he => hm e (List.mem_cons_of_mem _ he)) (fun e he => hg e (List.mem_cons_of_mem _ he)) hy ?_
      obtain ⟨v, hv, hyv⟩ := (allPassLoop_iff (hm e List.mem_cons_self) x u).1 hu
      have := allpass_total (hg e List.mem_cons_self) (v := lag v e.period) (fun n => rfl) (comb_of_combLoop (hm e List.mem_cons_self) hv) hx.summable
      rw [hx.tsum_eq] at this
      convert this using 3 with n
      exact hyv n

theorem lag_sub (x y : ℕ → ℝ) (k n : ℕ) : lag (fun n => x n - y n) k n = lag x k n - lag y k n := by
  unfold lag
  split_ifs <;> simp [real_zero]

theorem comb_sub {g : ℝ} {k : ℕ} {x x' z z' : ℕ → ℝ} (h : Comb g k x z) (h' : Comb g k x' z') :
    Comb g k (fun n => x n - x' n) fun n => z n - z' n := by
  intro n
  show z n - z' n = _
  rw [h n, h' n, lag_sub]
  ring

theorem allpass_peak {g γ B : ℝ} (hg : |g| ≤ γ) (hγ : γ < 1) {k : ℕ} (hk : 1 ≤ k) {x z : ℕ → ℝ} (h : Comb g k x z) (hx : ∀ n, |x n| ≤ B) (n : ℕ) :
    |lag z k n - g * z n| ≤ (1 + 2 * γ) * B := by
  have hB : 0 ≤ B := (abs_nonneg _).trans (hx 0)
  have h0 := abs_nonneg g
  have h1 : 0 < 1 - |g| := by linarith
  have hl := (comb_lag_bounded (by linarith) hk h hx n).2
  have e : lag z k n - g * z n = (1 - g ^ 2) * lag z k n - g * x n := by rw [h n]; ring
  rw [e]
  refine (abs_sub _ _).trans ?_
  rw [abs_mul, abs_mul]
  have hs : |1 - g ^ 2| = (1 - |g|) * (1 + |g|) := by
    rw [← sq_abs g, abs_of_nonneg (by nlinarith)]
    ring
  rw [hs]
  have q1 : (1 - |g|) * (1 + |g|) * |lag z k n| ≤ (1 + |g|) * B := by
    have := mul_le_mul_of_nonneg_left hl (by positivity : 0 ≤ (1 - |g|) * (1 + |g|))
    have e2 : (1 - |g|) * (1 + |g|) * (B / (1 - |g|)) = (1 + |g|) * B := by field_simp
    linarith
  have q2 := mul_le_mul_of_nonneg_left (hx n) h0
  nlinarith

theorem combBank_bounded [Target] {cs : List (Echo ℝ)} (hm : ∀ e ∈ cs, Allocatable ℝ e.m) {γ B : ℝ} (hγ : γ < 1) (hg : ∀ e ∈ cs, |e.g| ≤ γ)
    {x w : ℕ → ℝ} (hx : ∀ n, |x n| ≤ B) (h : CombBank b cs x w) (n : ℕ) : |w n| ≤ cs.length * (B / (1 - γ)) := by
  have hB : 0 ≤ B := (abs_nonneg _).trans (hx 0)
  induction cs generalizing w with
  | nil => cases h; simp [real_zero]
  | cons e es ih =>
    cases h with
    | @cons _ _ _ u y hu hy =>
      have h1 := ih (fun e he => hm e (List.mem_cons_of_mem _ he)) (fun e he => hg e (List.mem_cons_of_mem _ he)) hy
      have hge := hg e List.mem_cons_self
      have h2 := comb_bounded (by linarith) e.one_le_period (comb_of_combLoop (hm e List.mem_cons_self) hu) hx n
      have h3 : B / (1 - |e.g|) ≤ B / (1 - γ) := div_le_div_of_nonneg_left hB (by linarith) (by linarith)
      have := abs_add_le (u n) (y n)
      rw [List.length_cons]
      push_cast
      show |u n + y n| ≤ _
      linarith

theorem allPassChain_bounded [Target] {as : List (Echo ℝ)} (hm : ∀ e ∈ as, Allocatable ℝ e.m) {α B : ℝ} (hα : α < 1) (hg : ∀ e ∈ as, |e.g| ≤ α)
    {x y : ℕ → ℝ} (hx : ∀ n, |x n| ≤ B) (h : AllPassChain b as x y) (n : ℕ) : |y n| ≤ (1 + 2 * α) ^ as.length * B := by
  induction as generalizing x B with
  | nil => cases h; simpa using hx n
  | cons e es ih =>
    cases h with
    | @cons _ _ _ u _ hu hy =>
      obtain ⟨v, hv, hyv⟩ := (allPassLoop_iff (hm e List.mem_cons_self) x u).1 hu
      have hu' : ∀ n, |u n| ≤ (1 + 2 * α) * B := fun n => by
        rw [hyv n]
        exact allpass_peak (hg e List.mem_cons_self) hα e.one_le_period (comb_of_combLoop (hm e List.mem_cons_self) hv) hx n
      have := ih (fun e he => hm e (List.mem_cons_of_mem _ he)) (fun e he => hg e (List.mem_cons_of_mem _ he)) hu' hy
      rw [List.length_cons, pow_succ]
      linarith

/-- **C157.** Headroom: with `N` combs of gain at most `γ` and `M` all-passes of gain at most `α`, inputs between `-B` and `B` give outputs
of at most `N (1 + 2α)^M B / (1 - γ)`. -/
theorem C157_headroom [Target] {cs as : List (Echo ℝ)} (hc : ∀ e ∈ cs, Allocatable ℝ e.m) (ha : ∀ e ∈ as, Allocatable ℝ e.m) {γ α B : ℝ}
    (hγ : γ < 1) (hα : α < 1) (hgc : ∀ e ∈ cs, |e.g| ≤ γ) (hga : ∀ e ∈ as, |e.g| ≤ α) {x y : ℕ → ℝ} (hx : ∀ n, |x n| ≤ B)
    (h : Reverberates b cs as x y) (n : ℕ) : |y n| ≤ (1 + 2 * α) ^ as.length * (cs.length * (B / (1 - γ))) := by
  obtain ⟨w, hw, hy⟩ := h
  exact allPassChain_bounded ha hα hga (combBank_bounded hc hγ hgc hx hw) hy n

/-! ## Floating point -/

/-- What the `n` combs, with gains of at most `γ`, and their sum may be off. -/
noncomputable def bankError (f : Fmt) (γ X : ℝ) : ℕ → ℝ
  | 0 => 0
  | n + 1 => (1 + f.u) * (combBound f γ X + bankError f γ X n) + f.u * ((n + 1) * (X / (1 - γ))) + f.tiny

/-- What `m` all-passes, with gains of at most `α`, make of an exact level `Y` that is off by `E`. -/
noncomputable def chainError (f : Fmt) (α : ℝ) : ℕ → ℝ → ℝ → ℝ
  | 0, _, E => E
  | m + 1, Y, E => chainError f α m ((1 + 2 * α) * Y) (2 * combBound f α (Y + E) + (1 + 2 * α) * E)

theorem combBound_mono {g γ X Y : ℝ} (hg : |g| ≤ γ) (hγ : γ < 1) (hX : 0 ≤ X) (hXY : X ≤ Y) : combBound f g X ≤ combBound f γ Y := by
  have hu := f.u_pos
  have ht := f.tiny_pos
  have h0 : 0 ≤ γ := (abs_nonneg g).trans hg
  unfold combBound
  rw [abs_of_nonneg h0]
  have h1 : 0 < 1 - γ := by linarith
  have h2 : 1 - γ ≤ 1 - |g| := by linarith
  have h3 : (1 - γ) ^ 2 ≤ (1 - |g|) ^ 2 := pow_le_pow_left₀ h1.le h2 2
  have h4 : 0 ≤ 8 * f.u * Y := by have := hX.trans hXY; positivity
  gcongr

theorem combBound_nonneg {γ X : ℝ} (hγ : |γ| < 1) (hX : 0 ≤ X) : 0 ≤ combBound f γ X := by
  have hu := f.u_pos
  have ht := f.tiny_pos
  have h1 : 0 < 1 - |γ| := by linarith
  unfold combBound
  positivity

theorem bankError_nonneg {γ X : ℝ} (h0 : 0 ≤ γ) (hγ : γ < 1) (hX : 0 ≤ X) (n : ℕ) : 0 ≤ bankError f γ X n := by
  induction n with
  | zero => exact le_rfl
  | succ n ih =>
    have hu := f.u_pos
    have ht := f.tiny_pos
    have h1 : 0 < 1 - γ := by linarith
    have := combBound_nonneg (f := f) (γ := γ) (by rwa [abs_of_nonneg h0]) hX
    unfold bankError
    positivity

theorem chainError_ge {α : ℝ} (h0 : 0 ≤ α) (hα : α < 1) (m : ℕ) {Y E : ℝ} (hY : 0 ≤ Y) (hE : 0 ≤ E) :
    E ≤ chainError f α m Y E := by
  induction m generalizing Y E with
  | zero => exact le_rfl
  | succ m ih =>
    have hc := combBound_nonneg (f := f) (γ := α) (by rwa [abs_of_nonneg h0]) (add_nonneg hY hE)
    have h1 : E ≤ 2 * combBound f α (Y + E) + (1 + 2 * α) * E := by nlinarith
    exact h1.trans (ih (by positivity) (by positivity))

theorem combBank_close [Target] {cs : List (Echo (Fl L))} (hm : ∀ e ∈ cs, Allocatable (Fl L) e.m) (hm' : ∀ e ∈ cs, Allocatable ℝ e.m)
    (hgf : ∀ e ∈ cs, e.g.Finite) {γ X : ℝ} (hγ : 16 * f.u ≤ 1 - γ) (hg : ∀ e ∈ cs, |e.g.toReal| ≤ γ) (h0 : 0 ≤ γ)
    (hov : (8 * X + 48 * f.tiny) / (1 - γ) ≤ 2 ^ f.emax) (hov' : cs.length * (X / (1 - γ)) + bankError f γ X cs.length ≤ 2 ^ f.emax)
    {x w : ℕ → Fl L} {w' : ℕ → ℝ} (hx : ∀ n, (x n).Within X) (h : CombBank b cs x w)
    (h' : CombBank b (cs.map Echo.exact) (fun n => (x n).toReal) w') : StaysClose w w' (bankError f γ X cs.length) := by
  have hu0 := f.u_pos
  have ht := f.tiny_pos
  have hX : 0 ≤ X := (abs_nonneg _).trans (hx 0).2
  have h1 : 0 < 1 - γ := by linarith
  induction cs generalizing w w' with
  | nil =>
    cases h
    cases h'
    exact fun n => ⟨zero_finite, by rw [zero_toReal, real_zero]; simp [bankError]⟩
  | cons e es ih =>
    cases h with
    | @cons _ _ _ u y hu hy =>
      cases h' with
      | @cons _ _ _ u' y' hu' hy' =>
        have me := List.mem_cons_self (a := e) (l := es)
        have mt : ∀ {e'}, e' ∈ es → e' ∈ e :: es := fun he => List.mem_cons_of_mem _ he
        have hcb := combBound_nonneg (f := f) (γ := γ) (by rw [abs_of_nonneg h0]; linarith) hX
        have hbn := bankError_nonneg (f := f) h0 (by linarith) hX es.length
        have hge := hg e me
        rw [List.length_cons] at hov' ⊢
        have hdiv : 0 ≤ X / (1 - γ) := by positivity
        have hstep : bankError f γ X (es.length + 1) = (1 + f.u) * (combBound f γ X + bankError f γ X es.length) +
          f.u * ((es.length + 1) * (X / (1 - γ))) + f.tiny := rfl
        push_cast at hov'
        have hen : (0 : ℝ) ≤ es.length := Nat.cast_nonneg _
        have hq : 0 ≤ f.u * ((es.length + 1) * (X / (1 - γ))) := by positivity
        have hq2 : 0 ≤ f.u * (combBound f γ X + bankError f γ X es.length) := by positivity
        have hcy := ih (fun e he => hm e (mt he)) (fun e he => hm' e (mt he)) (fun e he => hgf e (mt he)) (fun e he => hg e (mt he))
          (by linarith) hy hy'
        have hcu : StaysClose u u' (combBound f γ X) := by
          intro n
          have hov2 : (8 * X + 48 * f.tiny) / (1 - |e.g.toReal|) ≤ 2 ^ f.emax :=
            (div_le_div_of_nonneg_left (by positivity) h1 (by linarith)).trans hov
          have := comb_delay_close (hgf e me) (by linarith) e.one_le_period hov2 hx ((combLoop_iff (hm e me) x u).1 hu)
            (comb_of_combLoop (e := e.exact) (hm' e me) hu') n
          exact ⟨this.1.1, this.2.1.trans (combBound_mono hge (by linarith) hX le_rfl)⟩
        have hwl : ∀ n, |u' n + y' n| ≤ (es.length + 1) * (X / (1 - γ)) := by
          intro n
          have := combBank_bounded (b := b) (cs := (e :: es).map Echo.exact) (γ := γ) (B := X) (by
            intro e' he'
            obtain ⟨a, ha, rfl⟩ := List.mem_map.1 he'
            exact hm' a ha) (by linarith) (by
            intro e' he'
            obtain ⟨a, ha, rfl⟩ := List.mem_map.1 he'
            exact hg a ha) (fun n => (hx n).2) (.cons hu' hy') n
          rw [List.length_map, List.length_cons] at this
          push_cast at this
          exact this
        intro n
        obtain ⟨a1, a2⟩ := hcu n
        obtain ⟨b1, b2⟩ := hcy n
        have hd : |((u n).toReal + (y n).toReal) - (u' n + y' n)| ≤ combBound f γ X + bankError f γ X es.length := by
          rw [show ((u n).toReal + (y n).toReal) - (u' n + y' n) = ((u n).toReal - u' n) + ((y n).toReal - y' n) by ring]
          exact (abs_add_le _ _).trans (add_le_add a2 b2)
        have hl : |(u n).toReal + (y n).toReal| ≤ (es.length + 1) * (X / (1 - γ)) + (combBound f γ X + bankError f γ X es.length) := by
          have := abs_sub_abs_le_abs_sub ((u n).toReal + (y n).toReal) (u' n + y' n)
          have := hwl n
          linarith
        obtain ⟨c1, c2⟩ := add_val a1 b1 (noOvf_of_le_emax (hl.trans (by linarith)))
        refine ⟨c1, ?_⟩
        have e1 := abs_rnd_sub_le_u f ((u n).toReal + (y n).toReal)
        rw [← c2] at e1
        have e2 := mul_le_mul_of_nonneg_left hl hu0.le
        show |(u n +. y n).toReal - (u' n + y' n)| ≤ _
        rw [show (u n +. y n).toReal - (u' n + y' n) = ((u n +. y n).toReal - ((u n).toReal + (y n).toReal)) +
          (((u n).toReal + (y n).toReal) - (u' n + y' n)) by ring]
        refine (abs_add_le _ _).trans ?_
        rw [hstep]
        linarith

theorem allPassChain_close [Target] {as : List (Echo (Fl L))} (hm : ∀ e ∈ as, Allocatable (Fl L) e.m) (hm' : ∀ e ∈ as, Allocatable ℝ e.m)
    (hgf : ∀ e ∈ as, e.g.Finite) {α Y E : ℝ} (hα : 16 * f.u ≤ 1 - α) (hg : ∀ e ∈ as, |e.g.toReal| ≤ α) (h0 : 0 ≤ α) (hE : 0 ≤ E)
    (hov : (8 * ((1 + 2 * α) ^ as.length * Y + chainError f α as.length Y E) + 48 * f.tiny) / (1 - α) ≤ 2 ^ f.emax)
    {x y : ℕ → Fl L} {x' y' : ℕ → ℝ} (hx' : ∀ n, |x' n| ≤ Y) (hc : StaysClose x x' E) (h : AllPassChain b as x y)
    (h' : AllPassChain b (as.map Echo.exact) x' y') : StaysClose y y' (chainError f α as.length Y E) := by
  have hu0 := f.u_pos
  have ht := f.tiny_pos
  have h1 : 0 < 1 - α := by linarith
  induction as generalizing x x' Y E with
  | nil => cases h; cases h'; exact hc
  | cons e es ih =>
    cases h with
    | @cons _ _ _ u _ hu hy =>
      cases h' with
      | @cons _ _ _ u' _ hu' hy' =>
        have me := List.mem_cons_self (a := e) (l := es)
        have mt : ∀ {e'}, e' ∈ es → e' ∈ e :: es := fun he => List.mem_cons_of_mem _ he
        have hY : 0 ≤ Y := (abs_nonneg _).trans (hx' 0)
        have hge := hg e me
        have hcb := combBound_nonneg (f := f) (γ := α) (by rw [abs_of_nonneg h0]; linarith) (add_nonneg hY hE)
        have hpos : 0 ≤ 2 * combBound f α (Y + E) + (1 + 2 * α) * E := by positivity
        rw [List.length_cons] at hov ⊢
        have hstep : chainError f α (es.length + 1) Y E =
          chainError f α es.length ((1 + 2 * α) * Y) (2 * combBound f α (Y + E) + (1 + 2 * α) * E) := rfl
        obtain ⟨v, hv, hyv⟩ := (allPassLoop_iff (hm e me) x u).1 hu
        obtain ⟨v', hv', hyv'⟩ := (allPassLoop_iff (e := e.exact) (hm' e me) x' u').1 hu'
        have hcv' : Comb e.g.toReal e.period x' v' := comb_of_combLoop (e := e.exact) (hm' e me) hv'
        have hpw : Y ≤ (1 + 2 * α) ^ (es.length + 1) * Y :=
          le_mul_of_one_le_left hY (one_le_pow₀ (by linarith))
        have hch := chainError_ge (f := f) h0 (by linarith) (es.length + 1) hY hE
        have hxw : ∀ n, (x n).Within (Y + E) := fun n => ⟨(hc n).1, by
          have := abs_sub_abs_le_abs_sub (x n).toReal (x' n)
          have := (hc n).2
          have := hx' n
          linarith⟩
        have hov2 : (8 * (Y + E) + 48 * f.tiny) / (1 - |e.g.toReal|) ≤ 2 ^ f.emax := by
          refine le_trans ?_ hov
          refine (div_le_div_of_nonneg_left (by positivity) h1 (by linarith)).trans ?_
          exact div_le_div_of_nonneg_right (by linarith) h1.le
        -- the exact loop fed with the rounded input
        obtain ⟨z, hz⟩ := combLoop_exists (b := b) (e := e.exact) (hm' e me) fun n => (x n).toReal
        have hcz : Comb e.g.toReal e.period (fun n => (x n).toReal) z := comb_of_combLoop (e := e.exact) (hm' e me) hz
        obtain ⟨s, v0, r, hn, hl⟩ := hv
        obtain ⟨s', hn', hclose⟩ := C108_allpass (b := b) (d := e.d) (hm e me) (hgf e me) (by linarith) hov2 (k := e.period) rfl
        rw [hn] at hn'
        cases hn'
        have hcl := hclose x v v0 r z hxw hl hcz
        have hv0 : ∀ n, v0 n = lag v e.period n := by
          obtain ⟨s', hn', -, hi⟩ := C92_delay (b := b) (d := e.d) (hm e me) (fun x v => x +. (e.g *. v)) x
          rw [hn] at hn'
          cases hn'
          exact fun n => ((hi v v0 r).1 hl n).1
        have hcu : StaysClose u u' (2 * combBound f α (Y + E) + (1 + 2 * α) * E) := by
          intro n
          obtain ⟨a1, a2⟩ := hcl n
          beta_reduce at a1 a2
          rw [hv0 n, ← hyv n] at a1 a2
          refine ⟨a1, ?_⟩
          have hp := allpass_peak hge (by linarith) e.one_le_period (comb_sub hcz hcv') (fun n => (hc n).2) n
          rw [lag_sub] at hp
          have hb := combBound_mono (f := f) hge (by linarith) (add_nonneg hY hE) le_rfl
          have e0 : u' n = lag v' e.period n - e.g.toReal * v' n := hyv' n
          rw [e0, show (u n).toReal - (lag v' e.period n - e.g.toReal * v' n) =
            ((u n).toReal - (lag z e.period n - e.g.toReal * z n)) +
              (lag z e.period n - lag v' e.period n - e.g.toReal * (z n - v' n)) by ring]
          refine (abs_add_le _ _).trans ?_
          linarith
        rw [hstep]
        refine ih (fun e he => hm e (mt he)) (fun e he => hm' e (mt he)) (fun e he => hgf e (mt he)) (fun e he => hg e (mt he)) hpos ?_ ?_ hcu hy hy'
        · rw [← hstep]
          refine le_trans (le_of_eq ?_) hov
          rw [pow_succ]
          ring
        · intro n
          rw [hyv' n]
          exact allpass_peak hge (by linarith) e.one_le_period hcv' hx' n

/-- **C157.** A reverberator of comb loops with gains of at most `γ` and all-pass loops with gains of at most `α` in floating point: its
output is finite and stays close to that of the exact reverberator, however long it runs. -/
theorem C157_float [Target] {cs as : List (Echo (Fl L))} (hc : ∀ e ∈ cs ++ as, Allocatable (Fl L) e.m ∧ Allocatable ℝ e.m ∧ e.g.Finite)
    {γ α X : ℝ} (hγ : 16 * f.u ≤ 1 - γ) (hα : 16 * f.u ≤ 1 - α) (h0 : 0 ≤ γ) (h0' : 0 ≤ α) (hgc : ∀ e ∈ cs, |e.g.toReal| ≤ γ)
    (hga : ∀ e ∈ as, |e.g.toReal| ≤ α) {Y E : ℝ} (hY : Y = cs.length * (X / (1 - γ))) (hE : E = bankError f γ X cs.length)
    (hov : (8 * X + 48 * f.tiny) / (1 - γ) ≤ 2 ^ f.emax)
    (hov' : (8 * ((1 + 2 * α) ^ as.length * Y + chainError f α as.length Y E) + 48 * f.tiny) / (1 - α) ≤ 2 ^ f.emax)
    {x y : ℕ → Fl L} {y' : ℕ → ℝ} (hx : ∀ n, (x n).Within X) (h : Reverberates b cs as x y)
    (h' : Reverberates b (cs.map Echo.exact) (as.map Echo.exact) (fun n => (x n).toReal) y') :
    StaysClose y y' (chainError f α as.length Y E) := by
  obtain ⟨w, hw, hy⟩ := h
  obtain ⟨w', hw', hy'⟩ := h'
  have hu0 := f.u_pos
  have ht := f.tiny_pos
  have hX : 0 ≤ X := (abs_nonneg _).trans (hx 0).2
  have h1 : 0 < 1 - γ := by linarith
  have h2 : 0 < 1 - α := by linarith
  have hY0 : 0 ≤ Y := by rw [hY]; positivity
  have hE0 : 0 ≤ E := by rw [hE]; exact bankError_nonneg h0 (by linarith) hX _
  have mc : ∀ {e}, e ∈ cs → e ∈ cs ++ as := fun he => List.mem_append_left _ he
  have ma : ∀ {e}, e ∈ as → e ∈ cs ++ as := fun he => List.mem_append_right _ he
  have hpw : Y ≤ (1 + 2 * α) ^ as.length * Y := le_mul_of_one_le_left hY0 (one_le_pow₀ (by linarith))
  have hch := chainError_ge (f := f) h0' (by linarith) as.length hY0 hE0
  have hsum : Y + E ≤ 2 ^ f.emax := by
    refine le_trans ?_ hov'
    rw [le_div_iff₀ h2]
    nlinarith
  have hcw := combBank_close (fun e he => (hc e (mc he)).1) (fun e he => (hc e (mc he)).2.1) (fun e he => (hc e (mc he)).2.2) hγ hgc h0 hov
    (by rw [← hY, ← hE]; exact hsum) hx hw hw'
  rw [← hE] at hcw
  refine allPassChain_close (fun e he => (hc e (ma he)).1) (fun e he => (hc e (ma he)).2.1) (fun e he => (hc e (ma he)).2.2) hα hga h0' hE0 hov' ?_ hcw hy hy'
  intro n
  have := combBank_bounded (b := b) (cs := cs.map Echo.exact) (γ := γ) (B := X) (by
    intro e' he'
    obtain ⟨a, ha, rfl⟩ := List.mem_map.1 he'
    exact (hc a (mc ha)).2.1) (by linarith) (by
    intro e' he'
    obtain ⟨a, ha, rfl⟩ := List.mem_map.1 he'
    exact hgc a ha) (fun n => (hx n).2) hw' n
  rwa [List.length_map, ← hY] at this

theorem schroeder_bound {γ α : ℝ} (hγ : γ = 9 / 10) (hα : α = 3 / 4) (hu : f.u ≤ 1 / 2 ^ 24) (ht : f.tiny ≤ f.u / 1000) :
    chainError f α 2 40 (bankError f γ 1 4) ≤ 72000 * f.u := by
  have hu0 := f.u_pos
  have ht0 := f.tiny_pos
  norm_num at hu
  have hsmall : ∀ K : ℝ, 0 ≤ K → f.u * (K * f.u) ≤ K * (1 / 16777216) * f.u := fun K hK => by
    have := mul_le_mul_of_nonneg_left hu (mul_nonneg hK hu0.le)
    nlinarith
  have hc : combBound f γ 1 = 800 * f.u + 60 * f.tiny := by
    unfold combBound
    rw [hγ, abs_of_pos (by norm_num : (0 : ℝ) < 9 / 10)]
    ring
  have hca : ∀ Z, combBound f α Z = 128 * f.u * Z + 24 * f.tiny := fun Z => by
    unfold combBound
    rw [hα, abs_of_pos (by norm_num : (0 : ℝ) < 3 / 4)]
    ring
  have hq : (1 : ℝ) / (1 - γ) = 10 := by rw [hγ]; norm_num
  have step : ∀ (n : ℕ) (K : ℝ), 0 ≤ K → bankError f γ 1 n ≤ K * f.u →
      bankError f γ 1 (n + 1) ≤ (801 + K + K * (1 / 16777216) + 10 * (n + 1)) * f.u := by
    intro n K hK h
    have e : bankError f γ 1 (n + 1) = (1 + f.u) * (combBound f γ 1 + bankError f γ 1 n) + f.u * ((n + 1) * (1 / (1 - γ))) + f.tiny := rfl
    rw [e, hc, hq]
    have h1 : 800 * f.u + 60 * f.tiny + bankError f γ 1 n ≤ (800.06 + K) * f.u := by norm_num; linarith
    have h2 := mul_le_mul_of_nonneg_left h1 hu0.le
    have h3 := hsmall (800.06 + K) (by positivity)
    norm_num at h1 h2 h3 ⊢
    linarith
  have b1 : bankError f γ 1 1 ≤ 812 * f.u := by
    have := step 0 0 le_rfl (by simp [bankError])
    norm_num at this
    linarith
  have b2 : bankError f γ 1 2 ≤ 1634 * f.u := by
    have := step 1 812 (by norm_num) b1
    norm_num at this
    linarith
  have b3 : bankError f γ 1 3 ≤ 2466 * f.u := by
    have := step 2 1634 (by norm_num) b2
    norm_num at this
    linarith
  have b4 : bankError f γ 1 4 ≤ 3308 * f.u := by
    have := step 3 2466 (by norm_num) b3
    norm_num at this
    linarith
  obtain ⟨E, hE⟩ : ∃ E, E = bankError f γ 1 4 := ⟨_, rfl⟩
  have hdef : chainError f α 2 40 E = 2 * combBound f α ((1 + 2 * α) * 40 + (2 * combBound f α (40 + E) + (1 + 2 * α) * E)) +
      (1 + 2 * α) * (2 * combBound f α (40 + E) + (1 + 2 * α) * E) := rfl
  rw [← hE] at b4 ⊢
  rw [hdef, hca, hca, hα]
  have p1 := mul_le_mul_of_nonneg_left b4 hu0.le
  have p2 := hsmall 3308 (by norm_num)
  obtain ⟨F, hF⟩ : ∃ F, F = 2 * (128 * f.u * (40 + E) + 24 * f.tiny) + (1 + 2 * (3 / 4)) * E := ⟨_, rfl⟩
  have hF1 : F ≤ 18520 * f.u := by rw [hF]; linarith
  rw [← hF]
  have p3 := mul_le_mul_of_nonneg_left hF1 hu0.le
  have p4 := hsmall 18520 (by norm_num)
  linarith

/-- **C157.** Schroeder's arrangement of four combs, with gains of at most 0.9, and two all-passes, with gains of at most 0.75, on samples between
-1 and 1: it exists in floating point and in exact arithmetic, and the two outputs stay within `72000 · 2^-p` of each other for ever — about
8e-12 in `f64` and 0.0043 in `f32`. -/
theorem C157_schroeder [Target] (hf : f.Ordinary) (hp : 24 ≤ f.p) {cs as : List (Echo (Fl L))} (h4 : cs.length = 4) (h2 : as.length = 2)
    (hc : ∀ e ∈ cs ++ as, Allocatable (Fl L) e.m ∧ Allocatable ℝ e.m ∧ e.g.Finite) (hgc : ∀ e ∈ cs, |e.g.toReal| ≤ 9 / 10)
    (hga : ∀ e ∈ as, |e.g.toReal| ≤ 3 / 4) {x : ℕ → Fl L} (hx : ∀ n, (x n).Within 1) :
    ∃ y y', Reverberates b cs as x y ∧ Reverberates b (cs.map Echo.exact) (as.map Echo.exact) (fun n => (x n).toReal) y' ∧
      StaysClose y y' (72000 * f.u) := by
  have hu0 := f.u_pos
  have ht0 := f.tiny_pos
  have hu : f.u ≤ 1 / 2 ^ 24 := by
    unfold Fmt.u
    exact one_div_le_one_div_of_le (by positivity) (pow_le_pow_right₀ (by norm_num) hp)
  have ht := hf.tiny_le
  have hem := hf.emax_ge
  have mc : ∀ {e}, e ∈ cs → e ∈ cs ++ as := fun he => List.mem_append_left _ he
  have ma : ∀ {e}, e ∈ as → e ∈ cs ++ as := fun he => List.mem_append_right _ he
  obtain ⟨y, hy, -⟩ := C157_runs (b := b) (fun e he => (hc e (mc he)).1) (fun e he => (hc e (ma he)).1) x
  obtain ⟨y', hy', -⟩ := C157_runs (b := b) (cs := cs.map Echo.exact) (as := as.map Echo.exact) (fun e he => by
    obtain ⟨a, ha, rfl⟩ := List.mem_map.1 he
    exact (hc a (mc ha)).2.1) (fun e he => by
    obtain ⟨a, ha, rfl⟩ := List.mem_map.1 he
    exact (hc a (ma ha)).2.1) fun n => (x n).toReal
  refine ⟨y, y', hy, hy', ?_⟩
  have hb := schroeder_bound (f := f) (γ := 9 / 10) (α := 3 / 4) rfl rfl hu ht
  have hY : (40 : ℝ) = cs.length * (1 / (1 - 9 / 10)) := by rw [h4]; norm_num
  have hE : bankError f (9 / 10) 1 4 = bankError f (9 / 10) 1 cs.length := by rw [h4]
  have := C157_float (b := b) hc (γ := 9 / 10) (α := 3 / 4) (X := 1) (by norm_num at hu ⊢; linarith) (by norm_num at hu ⊢; linarith) (by norm_num)
    (by norm_num) hgc hga hY hE (by norm_num at hu hem ⊢; linarith) (by rw [h2]; norm_num at hu hem hb ⊢; linarith) hx hy hy'
  rw [h2] at this
  exact fun n => ⟨(this n).1, (this n).2.trans hb⟩

/-- Four combs and two all-passes with periods from 225 to 1557 samples, all gains one half, meet the hypotheses in `f64`, and the bound is small. -/
example [Target] (L : Libm binary64) : ∃ cs as : List (Echo (Fl L)), cs.length = 4 ∧ as.length = 2 ∧
    (∀ e ∈ cs ++ as, Allocatable (Fl L) e.m ∧ Allocatable ℝ e.m ∧ e.g.Finite) ∧ (∀ e ∈ cs, |e.g.toReal| ≤ 9 / 10) ∧
    (∀ e ∈ as, |e.g.toReal| ≤ 3 / 4) ∧ binary64.Ordinary ∧ 24 ≤ binary64.p ∧ 72000 * binary64.u < 1 / 10 ^ 11 ∧ 72000 * binary32.u < 1 / 200 := by
  have hrep : IsRep binary64 (1 / 2) := ⟨1, -1, by show |(1 : ℤ)| < 2 ^ 53; norm_num, by show (-1074 : ℤ) ≤ -1; norm_num, by norm_num⟩
  obtain ⟨g, h3, h4⟩ := Fl.exists_of_isRep L hrep (by
    have := binary64_ordinary.emax_ge
    have h2 : (2 : ℝ) ^ binary64.emax ≤ binary64.lim := by unfold Fmt.lim; exact (zpow_lt_zpow_right₀ (by norm_num) (by omega)).le
    rw [abs_of_pos (by norm_num)]
    norm_num at this ⊢
    linarith)
  have hu : binary64.u = 1 / 2 ^ 53 := by simp [Fmt.u, binary64]
  have hu' : binary32.u = 1 / 2 ^ 24 := rfl
  have hh : |(1 / 2 : ℝ)| = 1 / 2 := abs_of_pos (by norm_num)
  have hA : ∀ m : ℕ, m ≤ 2000 → Allocatable (Fl L) m ∧ Allocatable ℝ m := by
    intro m hm
    have h := target
    have h1 : size (Fl L) = 8 := rfl
    have h2 : size ℝ = 8 := rfl
    unfold Allocatable
    rw [h1, h2]
    constructor <;> omega
  refine ⟨[⟨1116, 2000, g⟩, ⟨1188, 2000, g⟩, ⟨1356, 2000, g⟩, ⟨1557, 2000, g⟩], [⟨556, 1000, g⟩, ⟨225, 1000, g⟩], rfl, rfl, ?_, ?_, ?_,
    binary64_ordinary, by norm_num [binary64], by rw [hu]; norm_num, by rw [hu']; norm_num⟩
  · intro e he
    have : e.m ≤ 2000 ∧ e.g = g := by
      simp only [List.cons_append, List.nil_append, List.mem_cons, List.not_mem_nil, or_false] at he
      rcases he with rfl | rfl | rfl | rfl | rfl | rfl <;> exact ⟨by norm_num, rfl⟩
    exact ⟨(hA _ this.1).1, (hA _ this.1).2, by rw [this.2]; exact h3⟩
  · intro e he
    have : e.g = g := by
      simp only [List.mem_cons, List.not_mem_nil, or_false] at he
      rcases he with rfl | rfl | rfl | rfl <;> rfl
    rw [this, h4, hh]; norm_num
  · intro e he
    have : e.g = g := by
      simp only [List.mem_cons, List.not_mem_nil, or_false] at he
      rcases he with rfl | rfl <;> rfl
    rw [this, h4, hh]; norm_num

/-- Two loops of 2 and 3 samples with gains 1/2 and 1/4: their echoes meet at sample 6, and the energy of the impulse response is
4/3 + 16/15 + 2/(1 - 1/128). -/
example [Target] : ∃ w, CombBank ⟨true⟩ [⟨2, 10, 1 / 2⟩, ⟨3, 10, 1 / 4⟩] unitImpulse w ∧ w 6 = 3 / 16 ∧ w 5 = 0 ∧
    HasSum (fun n => w n ^ 2) (4 / 3 + 256 / 127 + 16 / 15 : ℝ) := by
  have hm : ∀ e ∈ [(⟨2, 10, 1 / 2⟩ : Echo ℝ), ⟨3, 10, 1 / 4⟩], Allocatable ℝ e.m := by
    intro e he
    have : e.m = 10 := by
      simp only [List.mem_cons, List.not_mem_nil, or_false] at he
      rcases he with rfl | rfl <;> rfl
    rw [this]
    show (10 + 1) * 8 ≤ isizeMax
    have := target
    omega
  have hg : ∀ e ∈ [(⟨2, 10, 1 / 2⟩ : Echo ℝ), ⟨3, 10, 1 / 4⟩], |e.g| < 1 := by
    intro e he
    simp only [List.mem_cons, List.not_mem_nil, or_false] at he
    rcases he with rfl | rfl <;> norm_num [abs_of_pos]
  obtain ⟨w, hw⟩ := combBank_exists (b := ⟨true⟩) hm unitImpulse
  refine ⟨w, hw, ?_, ?_, ?_⟩
  · rw [C157_echoes hm hw]; norm_num [Echo.period]
  · rw [C157_echoes hm hw]; norm_num [Echo.period]
  · have := C157_energy hm hg hw
    norm_num [Echo.period, show Nat.lcm 2 3 = 6 from rfl, show Nat.lcm 3 2 = 6 from rfl] at this ⊢
    exact this

/-- Gains for a reverberation time of 44100 samples are below one. -/
example : (10 : ℝ) ^ (-3 * (1116 : ℕ) / 44100 : ℝ) < 1 := Real.rpow_lt_one_of_one_lt_of_neg (by norm_num) (by norm_num)

end Rasp
