import Verif.Spec.Analysis
import Verif.Lemmas.SmoothFl
import Verif.Lemmas.Diff

/-!
# C45–C48: LeakyIntegrator
-/

namespace Rasp
open FloatOps Filter Topology

/-! ## C45 -/

section
variable {f : Fmt} {L : Libm f}

/-- **C45.** After any history, `get_alpha` is a number in `[0, 1)`. -/
theorem C45_alpha_in_range {s : LeakyIntegrator (Fl L)} (h : LeakyIntegrator.Reach (fun _ => True) s) :
    s.getAlpha.Finite ∧ 0 ≤ s.getAlpha.toReal ∧ s.getAlpha.toReal < 1 := by
  induction h with
  | new => exact ⟨Fl.zero_finite, by simp [LeakyIntegrator.getAlpha, LeakyIntegrator.new], by
      simp [LeakyIntegrator.getAlpha, LeakyIntegrator.new]⟩
  | @setAlpha s g _ ih =>
    unfold LeakyIntegrator.setAlpha
    split
    · rename_i hg
      rw [Bool.and_eq_true] at hg
      have hgf : g.Finite := by
        rcases Fl.cases g with ⟨t, rfl⟩ | ⟨t, rfl⟩ | hf
        · rw [Fl.lt_nan_left (Fl.isNaN_iff.mpr ⟨t, rfl⟩)] at hg
          exact absurd hg.2 (by simp)
        · exfalso
          obtain ⟨s0, a, ha, h0⟩ := FP.finite_cases (f := f) (Fl.zero_finite (L := L))
          obtain ⟨s1, a1, ha1, h1⟩ := FP.finite_cases (f := f) (Fl.one_finite (L := L))
          have e1 : FP.le (f := f) (zero : Fl L) (FP.inf t) = true := hg.1
          have e2 : FP.lt (f := f) (FP.inf t) (one : Fl L) = true := hg.2
          rw [h0] at e1
          rw [h1] at e2
          cases t <;> simp [FP.le, FP.lt] at e1 e2
        · exact hf
      rw [Fl.le_iff Fl.zero_finite hgf, Fl.lt_iff hgf Fl.one_finite, Fl.zero_toReal, Fl.one_toReal] at hg
      exact ⟨hgf, hg.1, hg.2⟩
    · exact ih
  | process x _ _ ih => exact ih
  | clear _ ih => exact ih

/-- **C45.** A number in `[0, 1)` is stored exactly. -/
theorem C45_setAlpha_accepts (s : LeakyIntegrator (Fl L)) (g : Fl L) (hf : g.Finite) (h0 : 0 ≤ g.toReal)
    (h1 : g.toReal < 1) : s.setAlpha g = { s with alpha := g } := by
  have : (le zero g && lt g one) = true := by
    rw [Bool.and_eq_true, Fl.le_iff Fl.zero_finite hf, Fl.lt_iff hf Fl.one_finite, Fl.zero_toReal, Fl.one_toReal]
    exact ⟨h0, h1⟩
  simp [LeakyIntegrator.setAlpha, this]

/-- **C45.** Anything else (NaN, infinities, negative numbers, one and above) changes nothing. -/
theorem C45_setAlpha_rejects (s : LeakyIntegrator (Fl L)) (g : Fl L) (h : ¬ (g.Finite ∧ 0 ≤ g.toReal ∧ g.toReal < 1)) :
    s.setAlpha g = s := by
  have : (le zero g && lt g one) = false := by
    rcases Fl.cases g with ⟨t, rfl⟩ | ⟨t, rfl⟩ | hf
    · rw [Fl.lt_nan_left (Fl.isNaN_iff.mpr ⟨t, rfl⟩), Bool.and_false]
    · obtain ⟨s0, a, ha, h0⟩ := FP.finite_cases (f := f) (Fl.zero_finite (L := L))
      obtain ⟨s1, a1, ha1, h1⟩ := FP.finite_cases (f := f) (Fl.one_finite (L := L))
      show (FP.le (f := f) (zero : Fl L) (FP.inf t) && FP.lt (f := f) (FP.inf t) (one : Fl L)) = false
      rw [h0, h1]
      cases t <;> simp [FP.le, FP.lt]
    · rw [← Bool.not_eq_true, Bool.and_eq_true, Fl.le_iff Fl.zero_finite hf, Fl.lt_iff hf Fl.one_finite, Fl.zero_toReal,
        Fl.one_toReal]
      exact fun hc => h ⟨hf, hc⟩
  simp [LeakyIntegrator.setAlpha, this]

/-- **C45.** `process` and `clear` do not touch the gain, `set_alpha` does not touch the output. -/
theorem C45_independent {T : Type} [FloatOps T] (s : LeakyIntegrator T) (x g : T) :
    (s.process x).1.getAlpha = s.getAlpha ∧ s.clear.getAlpha = s.getAlpha ∧ (s.setAlpha g).lastOut = s.lastOut := by
  refine ⟨rfl, rfl, ?_⟩
  unfold LeakyIntegrator.setAlpha
  split <;> rfl

/-! ## C46 -/

/-- **C46.** One step: unless `last_out - x` overflows, the output is finite and lies between the input and the previous
output. -/
theorem C46_step_between {s : LeakyIntegrator (Fl L)} (hs : LeakyIntegrator.Reach (fun _ => True) s) {x : Fl L}
    (hx : x.Finite) (hy : s.lastOut.Finite) (hov : FP.NoOvf f (s.lastOut.toReal - x.toReal)) :
    (s.process x).2.Finite ∧ min x.toReal s.lastOut.toReal ≤ (s.process x).2.toReal ∧
      (s.process x).2.toReal ≤ max x.toReal s.lastOut.toReal := by
  obtain ⟨h1, h2, h3⟩ := C45_alpha_in_range hs
  exact Fl.smooth_between h1 h2 h3 hx hy hov

theorem noOvf_sub_of_mem {lo hi a b : ℝ} (hw : FP.NoOvf f (hi - lo)) (ha : lo ≤ a ∧ a ≤ hi) (hb : lo ≤ b ∧ b ≤ hi) :
    FP.NoOvf f (a - b) := by
  refine lt_of_le_of_lt ?_ hw
  have h0 : 0 ≤ hi - lo := by linarith
  rw [abs_rnd, abs_rnd, abs_of_nonneg h0]
  apply rnd_mono
  rw [abs_le]; constructor <;> linarith

/-- **C46.** The condition is necessary: if `last_out - x` overflows the output is NaN or infinite. -/
theorem C46_overflow_not_finite {s : LeakyIntegrator (Fl L)} {x : Fl L} (hx : x.Finite) (hy : s.lastOut.Finite)
    (hov : ¬ FP.NoOvf f (s.lastOut.toReal - x.toReal)) : ¬ (s.process x).2.Finite :=
  Fl.add_not_finite_right (Fl.mul_not_finite_right (Fl.sub_ovf hy hx hov))

/-- **C46.** And it matters: a new integrator fed `-x, x` with `x = 2^emax` outputs NaN. -/
theorem C46_overflow_nan (L : Libm f) : ∃ x : Fl L, x.Finite ∧
    (((LeakyIntegrator.new : LeakyIntegrator (Fl L)).process (neg x)).1.process x).2.IsNaN := by
  obtain ⟨x, hx, hv, hov⟩ := Fl.exists_big L
  refine ⟨x, hx, ?_⟩
  have hn : (neg x).Finite := Fl.neg_finite.mpr hx
  have h1 : ((LeakyIntegrator.new : LeakyIntegrator (Fl L)).process (neg x)).2.Finite ∧
      ((LeakyIntegrator.new : LeakyIntegrator (Fl L)).process (neg x)).2.toReal = - x.toReal := by
    have hd := Fl.sub_val (x := zero) (y := neg x) Fl.zero_finite hn (by
      rw [Fl.zero_toReal, Fl.neg_toReal, zero_sub, neg_neg]; exact Fl.noOvf_toReal x)
    have hm := Fl.zero_mul_val hd.1
    have := Fl.add_zero_val hn hm.1 hm.2
    rw [Fl.neg_toReal] at this
    exact this
  have h2 : ¬ (((LeakyIntegrator.new : LeakyIntegrator (Fl L)).process (neg x)).2 -. x).Finite := by
    apply Fl.sub_ovf h1.1 hx
    rw [h1.2]
    intro hc
    apply hov
    unfold FP.NoOvf at hc ⊢
    rwa [show -x.toReal - x.toReal = -(x.toReal + x.toReal) by ring, rnd_neg, abs_neg] at hc
  exact Fl.add_nan_right (Fl.zero_mul_not_finite h2)

/-- **C46.** Any history with all inputs in `[lo, hi] ∋ 0` whose width does not overflow: the output stays there and is
never NaN. -/
theorem C46_never_leaves {lo hi : ℝ} (hlo : lo ≤ 0) (hhi : 0 ≤ hi) (hw : FP.NoOvf f (hi - lo))
    {s : LeakyIntegrator (Fl L)} (hs : s.Reach (Fl.In lo hi)) : Fl.In lo hi s.lastOut := by
  induction hs with
  | new => exact ⟨Fl.zero_finite, by simpa [LeakyIntegrator.lastOut, LeakyIntegrator.new] using hlo, by
      simpa [LeakyIntegrator.lastOut, LeakyIntegrator.new] using hhi⟩
  | @setAlpha s g _ ih => rw [(C45_independent s zero g).2.2]; exact ih
  | @process s x hs hx ih =>
    have hr : LeakyIntegrator.Reach (fun _ => True) s := by
      clear ih
      induction hs with
      | new => exact .new
      | setAlpha g _ ih => exact .setAlpha g ih
      | process x _ _ ih => exact .process x ih trivial
      | clear _ ih => exact .clear ih
    obtain ⟨h1, h2, h3⟩ := C46_step_between hr hx.1 ih.1 (noOvf_sub_of_mem hw ih.2 hx.2)
    exact ⟨h1, le_trans (le_min hx.2.1 ih.2.1) h2, h3.trans (max_le hx.2.2 ih.2.2)⟩
  | clear _ ih => exact ⟨Fl.zero_finite, by simpa [LeakyIntegrator.lastOut, LeakyIntegrator.clear] using hlo, by
      simpa [LeakyIntegrator.lastOut, LeakyIntegrator.clear] using hhi⟩

/-- The width condition holds for the usual audio range `[-1, 1]`. -/
example : FP.NoOvf f ((1 : ℝ) - (-1)) := by
  have h2 : (2 : ℝ) = (2 : ℝ) ^ (1 : ℤ) := by norm_num
  have := f.hp; have := f.hemin; have := f.hemax
  refine FP.noOvf_of_le (z := 2) (by rw [h2]; exact isRep_two_zpow (by omega)) ?_ (by norm_num)
  unfold Fmt.lim
  rw [h2, ← zpow_mul, one_mul]
  exact zpow_lt_zpow_right₀ (by norm_num) (by omega)

end

/-! ## C47 -/

/-- C47. Step response: after `n + 1` samples `c` the distance to `c` is `α^(n+1)` times the distance at the start. -/
theorem step_response (s : LeakyIntegrator ℝ) (c : ℝ) (b : Build) (y : ℕ → ℝ) (h : Responds b s (fun _ => c) y) (n : ℕ) :
    y n = c + s.getAlpha ^ (n + 1) * (s.lastOut - c) := by
  obtain ⟨st, h0, hst⟩ := h
  have key : ∀ n, (st n).alpha = s.alpha ∧ (st n).y_z1 = c + s.alpha ^ n * (s.y_z1 - c) := by
    intro n
    induction n with
    | zero => rw [h0]; simp
    | succ n ih =>
      have h2 := (Prod.mk.inj (Except.ok.inj (hst n))).1
      rw [← h2]
      simp only [real_add, real_mul, real_sub, ih.1, ih.2, true_and]
      ring
  have h3 := (Prod.mk.inj (Except.ok.inj (hst n))).2
  rw [← h3]
  simp only [real_add, real_mul, real_sub, (key n).1, (key n).2, LeakyIntegrator.getAlpha,
    LeakyIntegrator.lastOut]
  ring

/-- **C47.** Step response: after `n + 1` samples `c` the distance to `c` is `α^(n+1)` times the distance at the start. -/
theorem C47_step_response (s : LeakyIntegrator ℝ) (c : ℝ) (b : Build) :
    Responds b s (fun _ => c) (fun n => c + s.getAlpha ^ (n + 1) * (s.lastOut - c)) := by
  obtain ⟨y, hy⟩ := NeverPanics.responds (fun _ _ _ => ⟨_, _, rfl⟩) b s (fun _ => c)
  have := funext (step_response s c b y hy)
  rwa [this] at hy

/-- C47. So the output converges to `c`, and its distance to `c` never increases. -/
theorem leaky_converges (s : LeakyIntegrator ℝ) (h0 : 0 ≤ s.getAlpha) (h1 : s.getAlpha < 1) (c : ℝ) (b : Build) (y : ℕ → ℝ)
    (h : Responds b s (fun _ => c) y) :
    Tendsto y atTop (𝓝 c) ∧ ∀ n, |y (n + 1) - c| ≤ |y n - c| ∧ (y n ≤ c → y n ≤ y (n + 1) ∧ y (n + 1) ≤ c) ∧
      (c ≤ y n → y (n + 1) ≤ y n ∧ c ≤ y (n + 1)) := by
  have e := fun n => step_response s c b y h n
  have e2 : ∀ n, y (n + 1) - c = s.getAlpha * (y n - c) := by
    intro n; rw [e, e]; ring
  constructor
  · have h2 : Tendsto (fun n => c + s.getAlpha ^ (n + 1) * (s.lastOut - c)) atTop (𝓝 (c + 0 * (s.lastOut - c))) := by
      refine tendsto_const_nhds.add (Tendsto.mul_const _ ?_)
      exact (tendsto_add_atTop_iff_nat 1).mpr (tendsto_pow_atTop_nhds_zero_of_lt_one h0 h1)
    rw [zero_mul, add_zero] at h2
    exact h2.congr fun n => (e n).symm
  · intro n
    have h3 := e2 n
    refine ⟨?_, fun hc => ?_, fun hc => ?_⟩
    · rw [h3, abs_mul, abs_of_nonneg h0]
      have := abs_nonneg (y n - c)
      nlinarith
    · constructor <;> nlinarith
    · constructor <;> nlinarith

/-- **C47.** So the output converges to `c`, and its distance to `c` never increases. -/
theorem C47_converges (s : LeakyIntegrator ℝ) (h0 : 0 ≤ s.getAlpha) (h1 : s.getAlpha < 1) (c : ℝ) (b : Build) :
    ∃ y, Responds b s (fun _ => c) y ∧ Tendsto y atTop (𝓝 c) ∧
      ∀ n, |y (n + 1) - c| ≤ |y n - c| ∧ (y n ≤ c → y n ≤ y (n + 1) ∧ y (n + 1) ≤ c) ∧
        (c ≤ y n → y (n + 1) ≤ y n ∧ c ≤ y (n + 1)) :=
  ⟨_, C47_step_response s c b, leaky_converges s h0 h1 c b _ (C47_step_response s c b)⟩

/-- A non-trivial case: `α = 1/2` from 0 towards 1 (the crate's own test). -/
example : Responds ⟨true⟩ ((LeakyIntegrator.new : LeakyIntegrator ℝ).setAlpha (1 / 2)) (fun _ => 1)
    (fun n => 1 - (1 / 2) ^ (n + 1)) := by
  have hs : (LeakyIntegrator.new : LeakyIntegrator ℝ).setAlpha (1 / 2) = { alpha := 1 / 2, y_z1 := 0 } := by
    unfold LeakyIntegrator.setAlpha
    rw [if_pos (by rw [Bool.and_eq_true, real_le, real_lt]; norm_num)]
    rfl
  rw [hs]
  refine responds_of_inv (fun n s => s = { alpha := 1 / 2, y_z1 := 1 - (1 / 2) ^ n }) (by simp) ?_
  rintro n s rfl
  refine ⟨_, ?_, rfl⟩
  show Except.ok _ = Except.ok _
  congr 1
  simp only [LeakyIntegrator.process, real_add, real_sub, real_mul, Prod.mk.injEq, LeakyIntegrator.mk.injEq, true_and]
  constructor <;> ring

/-! ## C48 -/

/-- **C48.** A `LeakyIntegrator` is the `OnePole` with `b0 = 1 - α`, `a1 = -α`, from any common output. -/
theorem C48_is_onePole (s : LeakyIntegrator ℝ) (b : Build) (x y : ℕ → ℝ) :
    Responds b s x y ↔
      Responds b ({ y_z1 := s.lastOut, b0 := 1 - s.getAlpha, a1 := -s.getAlpha } : OnePole ℝ) x y := by
  constructor
  · refine Responds.transfer (fun s t => t = { y_z1 := s.lastOut, b0 := 1 - s.getAlpha, a1 := -s.getAlpha }) ?_ rfl
    rintro s _ x s' y rfl hp
    have h2 := Prod.mk.inj (Except.ok.inj hp)
    refine ⟨{ y_z1 := s'.lastOut, b0 := 1 - s'.getAlpha, a1 := -s'.getAlpha }, ?_, rfl⟩
    rw [← h2.1, ← h2.2]
    show Except.ok _ = Except.ok _
    congr 1
    simp only [OnePole.process, LeakyIntegrator.lastOut, LeakyIntegrator.getAlpha, real_add, real_sub, real_mul,
      Prod.mk.injEq, OnePole.mk.injEq, and_true]
    constructor <;> ring
  · refine Responds.transfer (fun t s => t = { y_z1 := s.lastOut, b0 := 1 - s.getAlpha, a1 := -s.getAlpha }) ?_ rfl
    rintro _ s x t' y rfl hp
    have h2 := Prod.mk.inj (Except.ok.inj hp)
    refine ⟨(s.process x).1, ?_, ?_⟩
    · show Except.ok _ = Except.ok _
      congr 1
      rw [← h2.2]
      simp only [LeakyIntegrator.process, LeakyIntegrator.lastOut, LeakyIntegrator.getAlpha, real_add,
        real_sub, real_mul, Prod.mk.injEq, true_and]
      ring
    · rw [← h2.1]
      simp only [LeakyIntegrator.process, LeakyIntegrator.lastOut, LeakyIntegrator.getAlpha, real_add,
        real_sub, real_mul, OnePole.mk.injEq, and_true]
      ring

end Rasp
