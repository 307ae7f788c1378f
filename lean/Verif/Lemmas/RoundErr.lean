import Verif.Lemmas.Fl
import Verif.Lemmas.Diff
import Verif.Spec.Rounding

/-!
# Rounding errors

`Near W k m v t`: the float `v` is finite and within `k (u W + η)` of the real number `t`, where `u = 2^-p`,
`η = 2^emin`; `m W` bounds `|t|`. A small calculus for sums of products, and the propagation of such errors
through a stable second-order recursion.
-/

namespace Rasp
open FloatOps

theorem Fmt.u_pos (f : Fmt) : 0 < f.u := by unfold Fmt.u; positivity
theorem Fmt.tiny_pos (f : Fmt) : 0 < f.tiny := two_zpow_pos _

theorem Fmt.u_le (f : Fmt) : f.u ≤ 1 / 4 := by
  unfold Fmt.u
  apply one_div_le_one_div_of_le (by norm_num)
  calc (4 : ℝ) = 2 ^ 2 := by norm_num
    _ ≤ 2 ^ f.p := pow_le_pow_right₀ (by norm_num) f.hp

/-- The error of one rounding. -/
theorem abs_rnd_sub_le_u (f : Fmt) (x : ℝ) : |rnd f x - x| ≤ f.u * |x| + f.tiny := by
  have hu := f.u_pos
  have ht := f.tiny_pos
  by_cases hx : x = 0
  · subst hx; simp [ht.le]
  refine (abs_rnd_sub_le f x).trans ?_
  unfold cexp
  rcases le_total (Int.log 2 |x| + 1 - f.p) f.emin with h | h
  · rw [max_eq_right h]
    have : 0 ≤ f.u * |x| := by positivity
    unfold Fmt.tiny at *
    linarith
  · rw [max_eq_left h]
    have h1 := zpow_log_le hx
    have h2 : (2 : ℝ) ^ (Int.log 2 |x| + 1 - (f.p : ℤ)) / 2 = f.u * 2 ^ Int.log 2 |x| := by
      unfold Fmt.u
      rw [zpow_sub₀ (by norm_num), zpow_add₀ (by norm_num), zpow_natCast]
      field_simp
    rw [h2]
    have := mul_le_mul_of_nonneg_left h1 hu.le
    linarith

namespace Fl
variable {f : Fmt} {L : Libm f} {W k l m n t r : ℝ} {v w c : Fl L}

/-- `v` is finite, within `k (u W + η)` of `t`, and `|t| ≤ m W`. -/
def Near (W k m : ℝ) (v : Fl L) (t : ℝ) : Prop :=
  v.Finite ∧ |v.toReal - t| ≤ k * (f.u * W + f.tiny) ∧ |t| ≤ m * W

theorem noOvf_of_le_emax {x : ℝ} (h : |x| ≤ 2 ^ f.emax) : FP.NoOvf f x :=
  FP.noOvf_of_le (z := 2 ^ f.emax) (isRep_two_zpow (by have := f.hemin; have := f.hemax; omega))
    (by unfold Fmt.lim; exact zpow_lt_zpow_right₀ (by norm_num) (by omega)) h

theorem Near.exact (hv : v.Finite) (h : |v.toReal| ≤ W) : Near W 0 1 v v.toReal :=
  ⟨hv, by simp, by simpa using h⟩

theorem Near.le {k' m' : ℝ} (h : Near W k m v t) (hW : 0 ≤ W) (hk : k ≤ k') (hm : m ≤ m') : Near W k' m' v t :=
  ⟨h.1, h.2.1.trans (mul_le_mul_of_nonneg_right hk (by have := f.u_pos; have := f.tiny_pos; positivity)),
    h.2.2.trans (mul_le_mul_of_nonneg_right hm hW)⟩

/-- A product of a coefficient and a sample. -/
theorem Near.coeff (hc : c.Finite) (hv : v.Finite) (h : |v.toReal| ≤ W) (hov : (|c.toReal| + 1) * W ≤ 2 ^ f.emax) :
    Near W (|c.toReal| + 1) |c.toReal| (c *. v) (c.toReal * v.toReal) := by
  have hW : 0 ≤ W := (abs_nonneg _).trans h
  have hp : |c.toReal * v.toReal| ≤ |c.toReal| * W := by
    rw [abs_mul]; exact mul_le_mul_of_nonneg_left h (abs_nonneg _)
  obtain ⟨h1, h2⟩ := mul_val hc hv (noOvf_of_le_emax (hp.trans (by nlinarith [abs_nonneg c.toReal])))
  refine ⟨h1, ?_, hp⟩
  rw [h2]
  refine (abs_rnd_sub_le_u f _).trans ?_
  have := mul_le_mul_of_nonneg_left hp f.u_pos.le
  have := mul_nonneg f.u_pos.le hW
  have := mul_nonneg (abs_nonneg c.toReal) f.tiny_pos.le
  nlinarith

private theorem sum_err {a t r x y k l W u η m n : ℝ} (hu : 0 < u) (hu4 : u ≤ 1 / 4) (hη : 0 < η) (hW : 0 ≤ W) (hk : 0 ≤ k)
    (hl : 0 ≤ l) (hm : 0 ≤ m) (hn : 0 ≤ n) (hx : |x - t| ≤ k * (u * W + η)) (hy : |y - r| ≤ l * (u * W + η)) (ht : |t| ≤ m * W) (hr : |r| ≤ n * W)
    (ha : |a - (x + y)| ≤ u * |x + y| + η) :
    |a - (t + r)| ≤ (5 / 4 * (k + l) + (m + n) + 1) * (u * W + η) := by
  have hd : 0 ≤ u * W + η := by positivity
  have h1 : |x + y| ≤ (m + n) * W + (k + l) * (u * W + η) := by
    have e : x + y = (x - t) + (y - r) + t + r := by ring
    rw [e]
    have := abs_add_le ((x - t) + (y - r) + t) r
    have := abs_add_le ((x - t) + (y - r)) t
    have := abs_add_le (x - t) (y - r)
    linarith
  have h2 : |a - (t + r)| ≤ |a - (x + y)| + |x - t| + |y - r| := by
    have e : a - (t + r) = (a - (x + y)) + (x - t) + (y - r) := by ring
    rw [e]
    have := abs_add_le ((a - (x + y)) + (x - t)) (y - r)
    have := abs_add_le (a - (x + y)) (x - t)
    linarith
  have h3 := mul_le_mul_of_nonneg_left h1 hu.le
  have h4 : u * ((k + l) * (u * W + η)) ≤ 1 / 4 * ((k + l) * (u * W + η)) :=
    mul_le_mul_of_nonneg_right hu4 (by positivity)
  have := mul_nonneg (add_nonneg hm hn) hη.le
  nlinarith

private theorem sum_size {t r x y k l W u η m n : ℝ} (hu4 : u ≤ 1 / 4) (hη : η ≤ W) (hW : 0 ≤ W) (hk : 0 ≤ k)
    (hl : 0 ≤ l) (hx : |x - t| ≤ k * (u * W + η)) (hy : |y - r| ≤ l * (u * W + η)) (ht : |t| ≤ m * W) (hr : |r| ≤ n * W) :
    |x + y| ≤ (5 / 4 * (k + l) + (m + n) + 1) * W := by
  have e : x + y = (x - t) + (y - r) + t + r := by ring
  rw [e]
  have := abs_add_le ((x - t) + (y - r) + t) r
  have := abs_add_le ((x - t) + (y - r)) t
  have := abs_add_le (x - t) (y - r)
  have : u * W ≤ 1 / 4 * W := mul_le_mul_of_nonneg_right hu4 hW
  have h5 : (k + l) * (u * W + η) ≤ (k + l) * (5 / 4 * W) :=
    mul_le_mul_of_nonneg_left (by linarith) (by positivity)
  nlinarith

/-- A sum. -/
theorem Near.add (h : Near W k m v t) (h' : Near W l n w r) (hW : f.tiny ≤ W) (hk : 0 ≤ k) (hl : 0 ≤ l) (hm : 0 ≤ m)
    (hn : 0 ≤ n) (hov : (5 / 4 * (k + l) + (m + n) + 1) * W ≤ 2 ^ f.emax) :
    Near W (5 / 4 * (k + l) + (m + n) + 1) (m + n) (v +. w) (t + r) := by
  have hW0 : 0 ≤ W := f.tiny_pos.le.trans hW
  have hs := sum_size f.u_le hW hW0 hk hl h.2.1 h'.2.1 h.2.2 h'.2.2
  obtain ⟨h1, h2⟩ := add_val h.1 h'.1 (noOvf_of_le_emax (hs.trans hov))
  refine ⟨h1, ?_, ?_⟩
  · rw [h2]
    exact sum_err f.u_pos f.u_le f.tiny_pos hW0 hk hl hm hn h.2.1 h'.2.1 h.2.2 h'.2.2 (abs_rnd_sub_le_u f _)
  · have := abs_add_le t r
    have := h.2.2; have := h'.2.2
    linarith

theorem Near.neg (h : Near W k m v t) : Near W k m (FloatOps.neg v) (-t) := by
  refine ⟨neg_finite.mpr h.1, ?_, by rw [abs_neg]; exact h.2.2⟩
  rw [neg_toReal, ← abs_neg]
  have := h.2.1
  convert this using 2
  ring

/-- A difference. -/
theorem Near.sub (h : Near W k m v t) (h' : Near W l n w r) (hW : f.tiny ≤ W) (hk : 0 ≤ k) (hl : 0 ≤ l) (hm : 0 ≤ m)
    (hn : 0 ≤ n) (hov : (5 / 4 * (k + l) + (m + n) + 1) * W ≤ 2 ^ f.emax) :
    Near W (5 / 4 * (k + l) + (m + n) + 1) (m + n) (v -. w) (t - r) := by
  have := Near.add h h'.neg hW hk hl hm hn hov
  rw [sub_eq_add_neg]
  exact this

end Fl

/-! ## Error propagation -/

/-- The second-order recursion with poles `p`, `q`, from rest. Only the perturbations up to `n` matter. -/
theorem recursion_error {a1 a2 : ℝ} {p q : ℂ} (hs : p + q = -a1) (hm : p * q = a2) (hp : ‖p‖ < 1) (hq : ‖q‖ < 1)
    {e d : ℕ → ℝ} (he : ∀ n, e n = d n - a1 * lag e 1 n - a2 * lag e 2 n) {B : ℝ} {n : ℕ} (hd : ∀ j ≤ n, |d j| ≤ B) :
    |e n| ≤ B / ((1 - ‖p‖) * (1 - ‖q‖)) := by
  have h1 : 0 < 1 - ‖p‖ := by linarith
  have h2 : 0 < 1 - ‖q‖ := by linarith
  have hB : 0 ≤ B := (abs_nonneg _).trans (hd 0 (Nat.zero_le _))
  have e0 : e 0 = d 0 := by have := he 0; simpa using this
  have e1 : e 1 = d 1 - a1 * e 0 := by
    have := he (0 + 1); rw [lag_two_succ] at this; simpa using this
  have e2 : ∀ j, e (j + 2) = d (j + 2) - a1 * e (j + 1) - a2 * e j := by
    intro j; have := he (j + 2); simpa using this
  -- first factor
  have hu : ∀ j, j ≤ n → ‖((e j : ℂ) - p * (if j = 0 then 0 else (e (j - 1) : ℂ)))‖ ≤ B / (1 - ‖q‖) := by
    intro j
    induction j with
    | zero =>
      intro hj
      rw [if_pos rfl, mul_zero, sub_zero, e0, Complex.norm_real, Real.norm_eq_abs]
      refine (hd 0 hj).trans ?_
      rw [le_div_iff₀ h2]
      nlinarith [norm_nonneg q]
    | succ j ih =>
      intro hj
      have ih := ih (by omega)
      have hstep : (e (j + 1) : ℂ) - p * e j = q * ((e j : ℂ) - p * (if j = 0 then 0 else (e (j - 1) : ℂ))) + d (j + 1) := by
        cases j with
        | zero =>
          rw [if_pos rfl, show 0 + 1 = 1 from rfl, e1]
          push_cast
          linear_combination (-(e 0 : ℂ)) * hs
        | succ i =>
          rw [if_neg (by omega), show i + 1 + 1 = i + 2 from rfl, e2 i, show i + 1 - 1 = i from rfl]
          push_cast
          linear_combination (-(e (i + 1) : ℂ)) * hs + (e i : ℂ) * hm
      rw [if_neg (by omega), show j + 1 - 1 = j from rfl, hstep]
      refine (norm_add_le _ _).trans ?_
      rw [norm_mul, Complex.norm_real, Real.norm_eq_abs]
      have hd' := hd (j + 1) hj
      have := mul_le_mul_of_nonneg_left ih (norm_nonneg q)
      have e : B / (1 - ‖q‖) = ‖q‖ * (B / (1 - ‖q‖)) + B := by field_simp; ring
      linarith
  have he' : ∀ j, j ≤ n → ‖(e j : ℂ)‖ ≤ B / ((1 - ‖p‖) * (1 - ‖q‖)) := by
    have hc : B / ((1 - ‖p‖) * (1 - ‖q‖)) = ‖p‖ * (B / ((1 - ‖p‖) * (1 - ‖q‖))) + B / (1 - ‖q‖) := by
      field_simp; ring
    intro j
    induction j with
    | zero =>
      intro hj
      have := hu 0 hj
      rw [if_pos rfl, mul_zero, sub_zero] at this
      have h3 : 0 ≤ ‖p‖ * (B / ((1 - ‖p‖) * (1 - ‖q‖))) := by positivity
      linarith
    | succ j ih =>
      intro hj
      have := hu (j + 1) hj
      rw [if_neg (by omega), show j + 1 - 1 = j from rfl] at this
      have ih := mul_le_mul_of_nonneg_left (ih (by omega)) (norm_nonneg p)
      have hsp : (e (j + 1) : ℂ) = ((e (j + 1) : ℂ) - p * e j) + p * e j := by ring
      have := norm_add_le ((e (j + 1) : ℂ) - p * e j) (p * e j)
      rw [← hsp, norm_mul] at this
      linarith
  have := he' n le_rfl
  rwa [Complex.norm_real, Real.norm_eq_abs] at this


section
variable {f : Fmt} {L : Libm f} {σ τ : Type} [Processor σ (Fl L)] [Processor τ ℝ] {s : σ} {r : τ} {X E : ℝ}

theorem tracks_of (h1 : NeverPanics σ (T := Fl L)) (h2 : NeverPanics τ (T := ℝ))
    (h : ∀ (b : Build) (x y : ℕ → Fl L) (z : ℕ → ℝ), (∀ n, (x n).Within X) → Responds b s x y →
      Responds b r (fun n => (x n).toReal) z → ∀ n, (y n).Finite ∧ |(y n).toReal - z n| ≤ E) :
    Tracks (L := L) s r X E :=
  ⟨fun b x => h1.responds b s x, fun b x => h2.responds b r x, h⟩

theorem Tracks.le {E' : ℝ} (h : Tracks (L := L) s r X E) (hE : E ≤ E') : Tracks (L := L) s r X E' :=
  ⟨h.1, h.2.1, fun b x y z hx hy hz n => ⟨(h.2.2 b x y z hx hy hz n).1, (h.2.2 b x y z hx hy hz n).2.trans hE⟩⟩

theorem Tracks.congr {σ' τ' : Type} [Processor σ' (Fl L)] [Processor τ' ℝ] {s' : σ'} {r' : τ'} (h : Tracks (L := L) s r X E)
    (h1 : ∀ (b : Build) (x y : ℕ → Fl L), Responds b s' x y ↔ Responds b s x y)
    (h2 : ∀ (b : Build) (x y : ℕ → ℝ), Responds b r' x y ↔ Responds b r x y) : Tracks (L := L) s' r' X E :=
  ⟨fun b x => (h.1 b x).imp fun y hy => (h1 b x y).mpr hy, fun b x => (h.2.1 b x).imp fun y hy => (h2 b x y).mpr hy,
   fun b x y z hx hy hz => h.2.2 b x y z hx ((h1 b x y).mp hy) ((h2 b _ z).mp hz)⟩
end

/-- If one step from memory bounded by `W` commits an error of at most `k (u W + η)`, then the whole run stays finite
and close to the exact run `z`. -/
theorem tracks_of_local {f : Fmt} {L : Libm f} {a1 a2 : ℝ} {p q : ℂ} (hs : p + q = -a1) (hm : p * q = a2) (hp : ‖p‖ < 1)
    (hq : ‖q‖ < 1) {y : ℕ → Fl L} {z : ℕ → ℝ} {G k X K : ℝ} (hG : 0 ≤ G) (hk : 0 ≤ k) (hX : 0 ≤ X)
    (hK : K = 1 / ((1 - ‖p‖) * (1 - ‖q‖))) (hz : ∀ n, |z n| ≤ G * X) (hprec : 2 * (K * k) ≤ 2 ^ f.p)
    (hov : k * ((2 * G + 2 * (K * k) + 1) * (X + f.tiny)) ≤ 2 ^ f.emax)
    (hloc : ∀ W, f.tiny ≤ W → X ≤ W → k * W ≤ 2 ^ f.emax → ∀ n, (∀ j < n, (y j).Finite ∧ |(y j).toReal| ≤ W) →
      (y n).Finite ∧ |(y n).toReal - z n + a1 * lag (fun i => (y i).toReal - z i) 1 n
        + a2 * lag (fun i => (y i).toReal - z i) 2 n| ≤ k * (f.u * W + f.tiny)) :
    ∀ n, (y n).Finite ∧ |(y n).toReal - z n| ≤ K * k * (2 * G + 3) * (f.u * X + f.tiny) := by
  have hu := f.u_pos
  have hu4 := f.u_le
  have ht := f.tiny_pos
  have h1 : 0 < 1 - ‖p‖ := by linarith
  have h2 : 0 < 1 - ‖q‖ := by linarith
  have hK0 : 0 ≤ K := by rw [hK]; positivity
  have hKk : 0 ≤ K * k := mul_nonneg hK0 hk
  have hKu : 2 * (K * k) * f.u ≤ 1 := by
    unfold Fmt.u
    rw [mul_one_div, div_le_one (by positivity)]
    exact hprec
  obtain ⟨M, hM⟩ : ∃ M, M = 2 * (G * X) + 2 * (K * k) * f.tiny + X + f.tiny := ⟨_, rfl⟩
  have hGX : 0 ≤ G * X := mul_nonneg hG hX
  have hKt : 0 ≤ K * k * f.tiny := by positivity
  have hM0 : 0 ≤ M := by rw [hM]; linarith
  have hMt : f.tiny ≤ M := by rw [hM]; linarith
  have hMX : X ≤ M := by rw [hM]; linarith
  have hkM : k * M ≤ 2 ^ f.emax := by
    refine le_trans (mul_le_mul_of_nonneg_left ?_ hk) hov
    rw [hM]
    nlinarith [mul_nonneg hG ht.le, mul_nonneg hKk hX]
  have herr : K * (k * (f.u * M + f.tiny)) ≤ K * k * (2 * G + 3) * (f.u * X + f.tiny) := by
    have e : f.u * M + f.tiny ≤ (2 * G + 3) * (f.u * X + f.tiny) := by
      have e1 : f.u * M = 2 * (G * (f.u * X)) + (2 * (K * k) * f.u) * f.tiny + f.u * X + f.u * f.tiny := by rw [hM]; ring
      have e2 : (2 * (K * k) * f.u) * f.tiny ≤ 1 * f.tiny := mul_le_mul_of_nonneg_right hKu ht.le
      have e3 : f.u * f.tiny ≤ 1 / 4 * f.tiny := mul_le_mul_of_nonneg_right hu4 ht.le
      have e4 : 0 ≤ f.u * X := by positivity
      have e5 : 0 ≤ G * f.tiny := by positivity
      nlinarith
    have := mul_le_mul_of_nonneg_left e hKk
    linarith
  have hM2 : G * X + K * (k * (f.u * M + f.tiny)) ≤ M := by
    have : K * (k * (f.u * M + f.tiny)) = (2 * (K * k) * f.u) * (M / 2) + K * k * f.tiny := by ring
    have e : (2 * (K * k) * f.u) * (M / 2) ≤ 1 * (M / 2) := mul_le_mul_of_nonneg_right hKu (by linarith)
    rw [this]
    linarith
  have key : ∀ n, (y n).Finite ∧ |(y n).toReal| ≤ M ∧ |(y n).toReal - z n| ≤ K * (k * (f.u * M + f.tiny)) := by
    intro n
    induction n using Nat.strong_induction_on with
    | _ n ih =>
      have hl := fun j (hj : j ≤ n) => hloc M hMt hMX hkM j fun i hi => ⟨(ih i (by omega)).1, (ih i (by omega)).2.1⟩
      have he := recursion_error hs hm hp hq (e := fun i => (y i).toReal - z i)
        (d := fun i => (y i).toReal - z i + a1 * lag (fun i => (y i).toReal - z i) 1 i
          + a2 * lag (fun i => (y i).toReal - z i) 2 i) (fun i => by ring) (n := n) (fun j hj => (hl j hj).2)
      have he' : |(y n).toReal - z n| ≤ K * (k * (f.u * M + f.tiny)) := by
        rw [hK]
        refine he.trans (le_of_eq ?_)
        ring
      refine ⟨(hl n le_rfl).1, ?_, he'⟩
      have := abs_add_le ((y n).toReal - z n) (z n)
      rw [sub_add_cancel] at this
      have := hz n
      linarith
  exact fun n => ⟨(key n).1, (key n).2.2.trans herr⟩

end Rasp
