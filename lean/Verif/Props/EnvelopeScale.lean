import Verif.Props.Envelope
import Verif.Props.Leaky

/-!
# C89: how detectors and integrator depend on level and past
-/

namespace Rasp
open FloatOps

/-- Two runs of total processors: a relation between the states, indexed by the sample number, that every step preserves,
and what it says about the outputs. -/
theorem responds_pair {σ T : Type} [Processor σ T] (hp : NeverPanics σ (T := T)) (b : Build) (R : ℕ → σ → σ → Prop)
    (Q : ℕ → T → T → Prop) (x x' : ℕ → T) {s t : σ} (h0 : R 0 s t)
    (hs : ∀ n s t s' t' y y', R n s t → Processor.process b s (x n) = .ok (s', y) →
      Processor.process b t (x' n) = .ok (t', y') → R (n + 1) s' t' ∧ Q n y y') :
    ∃ y y', Responds b s x y ∧ Responds b t x' y' ∧ ∀ n, Q n (y n) (y' n) := by
  obtain ⟨y, hy⟩ := NeverPanics.responds hp b s x
  obtain ⟨y', hy'⟩ := NeverPanics.responds hp b t x'
  refine ⟨y, y', hy, hy', ?_⟩
  obtain ⟨st, e0, e⟩ := hy
  obtain ⟨st', e0', e'⟩ := hy'
  have key : ∀ n, R n (st n) (st' n) := by
    intro n
    induction n with
    | zero => rw [e0, e0']; exact h0
    | succ n ih => exact (hs n _ _ _ _ _ _ ih (e n) (e' n)).1
  exact fun n => (hs n _ _ _ _ _ _ (key n) (e n) (e' n)).2

theorem peak_never : NeverPanics (PeakEnvDetector ℝ) (T := ℝ) := fun _ _ _ => ⟨_, _, rfl⟩
theorem rms_never : NeverPanics (RmsEnvDetector ℝ) (T := ℝ) := fun _ _ _ => ⟨_, _, rfl⟩
theorem leaky_never : NeverPanics (LeakyIntegrator ℝ) (T := ℝ) := fun _ _ _ => ⟨_, _, rfl⟩

theorem peak_envelope (s : PeakEnvDetector ℝ) (x : ℝ) :
    (s.process x).1.envelope = followed s.attack_gain s.release_gain s.envelope |x| := C51_peak_rule s x

theorem rms_envelope (s : RmsEnvDetector ℝ) (x : ℝ) :
    (s.process x).1.envelope = followed s.attack_gain s.release_gain s.envelope (x ^ 2) := by
  show x * x + (if lt s.envelope (x * x) then s.attack_gain else s.release_gain) * (s.envelope - x * x) = _
  unfold followed
  simp only [real_lt, pow_two]
  split <;> rfl

theorem followed_scale {k : ℝ} (hk : 0 ≤ k) (a r e i : ℝ) : followed a r (k * e) (k * i) = k * followed a r e i := by
  rcases hk.eq_or_lt with rfl | hk
  · simp [followed]
  · unfold followed
    simp only [mul_lt_mul_iff_right₀ hk]
    split <;> ring

theorem followed_contracts {a r g : ℝ} (ha : a ∈ Set.Icc 0 g) (hr : r ∈ Set.Icc 0 g) (e e' i : ℝ) :
    |followed a r e i - followed a r e' i| ≤ g * |e - e'| := by
  obtain ⟨a0, a1⟩ := ha
  obtain ⟨r0, r1⟩ := hr
  have key : ∀ {e e'}, e ≤ e' → 0 ≤ followed a r e' i - followed a r e i ∧
      followed a r e' i - followed a r e i ≤ g * (e' - e) := by
    intro e e' h
    unfold followed
    split_ifs with h1 h2 h2
    · constructor <;> nlinarith
    · linarith
    · push Not at h1; constructor <;> nlinarith
    · constructor <;> nlinarith
  rcases le_total e e' with h | h
  · rw [abs_sub_comm, abs_of_nonneg (key h).1, abs_sub_comm, abs_of_nonneg (sub_nonneg.mpr h)]; exact (key h).2
  · rw [abs_of_nonneg (key h).1, abs_of_nonneg (sub_nonneg.mpr h)]; exact (key h).2

/-! ## Level -/

/-- **C89.** A cleared peak detector in exact arithmetic: `c` times the input gives `|c|` times the output. -/
theorem C89_peak_scales (s : PeakEnvDetector ℝ) (b : Build) (x : ℕ → ℝ) (c : ℝ) :
    ∃ y, Responds b s.clear x y ∧ Responds b s.clear (fun n => c * x n) (fun n => |c| * y n) := by
  obtain ⟨y, y', h, h', hQ⟩ := responds_pair peak_never b
    (fun _ u v => u.attack_gain = v.attack_gain ∧ u.release_gain = v.release_gain ∧ v.envelope = |c| * u.envelope)
    (fun _ y y' => y' = |c| * y) x (fun n => c * x n) (s := s.clear) (t := s.clear)
    ⟨rfl, rfl, by simp [PeakEnvDetector.clear]⟩ (by
      rintro n u v u' v' y y' ⟨h1, h2, h3⟩ hu hv
      obtain ⟨rfl, rfl⟩ := Prod.mk.inj (Except.ok.inj hu)
      obtain ⟨rfl, rfl⟩ := Prod.mk.inj (Except.ok.inj hv)
      have : (v.process (c * x n)).1.envelope = |c| * (u.process (x n)).1.envelope := by
        rw [peak_envelope, peak_envelope, h3, ← h1, ← h2, abs_mul, followed_scale (abs_nonneg c)]
      exact ⟨⟨h1, h2, this⟩, this⟩)
  obtain rfl : y' = fun n => |c| * y n := funext hQ
  exact ⟨y, h, h'⟩

/-- **C89.** The same for the RMS detector. -/
theorem C89_rms_scales (s : RmsEnvDetector ℝ) (b : Build) (x : ℕ → ℝ) (c : ℝ) :
    ∃ y, Responds b s.clear x y ∧ Responds b s.clear (fun n => c * x n) (fun n => |c| * y n) := by
  obtain ⟨y, y', h, h', hQ⟩ := responds_pair rms_never b
    (fun _ u v => u.attack_gain = v.attack_gain ∧ u.release_gain = v.release_gain ∧ v.envelope = c ^ 2 * u.envelope)
    (fun _ y y' => y' = |c| * y) x (fun n => c * x n) (s := s.clear) (t := s.clear)
    ⟨rfl, rfl, by simp [RmsEnvDetector.clear]⟩ (by
      rintro n u v u' v' y y' ⟨h1, h2, h3⟩ hu hv
      obtain ⟨rfl, rfl⟩ := Prod.mk.inj (Except.ok.inj hu)
      obtain ⟨rfl, rfl⟩ := Prod.mk.inj (Except.ok.inj hv)
      have : (v.process (c * x n)).1.envelope = c ^ 2 * (u.process (x n)).1.envelope := by
        rw [rms_envelope, rms_envelope, h3, ← h1, ← h2, mul_pow, followed_scale (sq_nonneg c)]
      refine ⟨⟨h1, h2, this⟩, ?_⟩
      show √(v.process (c * x n)).1.envelope = |c| * √(u.process (x n)).1.envelope
      rw [this, Real.sqrt_mul (sq_nonneg c), Real.sqrt_sq_eq_abs])
  obtain rfl : y' = fun n => |c| * y n := funext hQ
  exact ⟨y, h, h'⟩

/-- **C89.** A cleared integrator keeps the sign: `c` times the input gives `c` times the output. -/
theorem C89_leaky_scales (s : LeakyIntegrator ℝ) (b : Build) (x : ℕ → ℝ) (c : ℝ) :
    ∃ y, Responds b s.clear x y ∧ Responds b s.clear (fun n => c * x n) (fun n => c * y n) := by
  obtain ⟨y, y', h, h', hQ⟩ := responds_pair leaky_never b
    (fun _ u v => u.alpha = v.alpha ∧ v.y_z1 = c * u.y_z1)
    (fun _ y y' => y' = c * y) x (fun n => c * x n) (s := s.clear) (t := s.clear)
    ⟨rfl, by simp [LeakyIntegrator.clear]⟩ (by
      rintro n u v u' v' y y' ⟨h1, h3⟩ hu hv
      obtain ⟨rfl, rfl⟩ := Prod.mk.inj (Except.ok.inj hu)
      obtain ⟨rfl, rfl⟩ := Prod.mk.inj (Except.ok.inj hv)
      have : (v.process (c * x n)).2 = c * (u.process (x n)).2 := by
        show c * x n + v.alpha * (v.y_z1 - c * x n) = c * (x n + u.alpha * (u.y_z1 - x n))
        rw [h3, ← h1]; ring
      exact ⟨⟨h1, this⟩, this⟩)
  obtain rfl : y' = fun n => c * y n := funext hQ
  exact ⟨y, h, h'⟩

/-! ## Past -/

/-- **C89.** Two peak detectors with the same gains, in `[0, g]`, and different pasts fed the same samples: the outputs
approach each other at least as fast as `g ^ n`. -/
theorem C89_peak_forgets (s t : PeakEnvDetector ℝ) (hga : s.getAttackGain = t.getAttackGain)
    (hgr : s.getReleaseGain = t.getReleaseGain) {g : ℝ} (ha : s.getAttackGain ∈ Set.Icc 0 g)
    (hr : s.getReleaseGain ∈ Set.Icc 0 g) (b : Build) (x : ℕ → ℝ) :
    ∃ y y', Responds b s x y ∧ Responds b t x y' ∧ ∀ n, |y n - y' n| ≤ g ^ (n + 1) * |s.lastOut - t.lastOut| := by
  have g0 : 0 ≤ g := ha.1.trans ha.2
  refine responds_pair peak_never b
    (fun n u v => (u.attack_gain = s.attack_gain ∧ u.release_gain = s.release_gain ∧ v.attack_gain = s.attack_gain ∧
      v.release_gain = s.release_gain) ∧ |u.envelope - v.envelope| ≤ g ^ n * |s.lastOut - t.lastOut|)
    (fun n y y' => |y - y'| ≤ g ^ (n + 1) * |s.lastOut - t.lastOut|) x x
    ⟨⟨rfl, rfl, hga.symm, hgr.symm⟩, by simp [PeakEnvDetector.lastOut]⟩ ?_
  rintro n u v u' v' y y' ⟨⟨h1, h2, h3, h4⟩, h5⟩ hu hv
  obtain ⟨rfl, rfl⟩ := Prod.mk.inj (Except.ok.inj hu)
  obtain ⟨rfl, rfl⟩ := Prod.mk.inj (Except.ok.inj hv)
  have : |(u.process (x n)).1.envelope - (v.process (x n)).1.envelope| ≤ g ^ (n + 1) * |s.lastOut - t.lastOut| := by
    rw [peak_envelope, peak_envelope, h1, h2, h3, h4]
    refine (followed_contracts ha hr _ _ _).trans ?_
    rw [pow_succ', mul_assoc]
    exact mul_le_mul_of_nonneg_left h5 g0
  exact ⟨⟨⟨h1, h2, h3, h4⟩, this⟩, this⟩

/-- **C89.** The same for the squares of the outputs of RMS detectors. -/
theorem C89_rms_forgets (s t : RmsEnvDetector ℝ) (hs : 0 ≤ s.envelope) (ht : 0 ≤ t.envelope)
    (hga : s.getAttackGain = t.getAttackGain)
    (hgr : s.getReleaseGain = t.getReleaseGain) {g : ℝ} (hg : g ≤ 1) (ha : s.getAttackGain ∈ Set.Icc 0 g)
    (hr : s.getReleaseGain ∈ Set.Icc 0 g) (b : Build) (x : ℕ → ℝ) :
    ∃ y y', Responds b s x y ∧ Responds b t x y' ∧
      ∀ n, |y n ^ 2 - y' n ^ 2| ≤ g ^ (n + 1) * |s.lastOut ^ 2 - t.lastOut ^ 2| := by
  have g0 : 0 ≤ g := ha.1.trans ha.2
  have ls : s.lastOut ^ 2 = s.envelope := Real.sq_sqrt hs
  have lt : t.lastOut ^ 2 = t.envelope := Real.sq_sqrt ht
  rw [ls, lt]
  refine responds_pair rms_never b
    (fun n u v => (u.attack_gain = s.attack_gain ∧ u.release_gain = s.release_gain ∧ v.attack_gain = s.attack_gain ∧
      v.release_gain = s.release_gain) ∧ 0 ≤ u.envelope ∧ 0 ≤ v.envelope ∧
      |u.envelope - v.envelope| ≤ g ^ n * |s.envelope - t.envelope|)
    (fun n y y' => |y ^ 2 - y' ^ 2| ≤ g ^ (n + 1) * |s.envelope - t.envelope|) x x
    ⟨⟨rfl, rfl, hga.symm, hgr.symm⟩, hs, ht, by simp⟩ ?_
  rintro n u v u' v' y y' ⟨⟨h1, h2, h3, h4⟩, hu0, hv0, h5⟩ hu hv
  obtain ⟨rfl, rfl⟩ := Prod.mk.inj (Except.ok.inj hu)
  obtain ⟨rfl, rfl⟩ := Prod.mk.inj (Except.ok.inj hv)
  have : |(u.process (x n)).1.envelope - (v.process (x n)).1.envelope| ≤ g ^ (n + 1) * |s.envelope - t.envelope| := by
    rw [rms_envelope, rms_envelope, h1, h2, h3, h4]
    refine (followed_contracts ha hr _ _ _).trans ?_
    rw [pow_succ', mul_assoc]
    exact mul_le_mul_of_nonneg_left h5 g0
  have ha1 : s.attack_gain ∈ Set.Icc (0 : ℝ) 1 := ⟨ha.1, ha.2.trans hg⟩
  have hr1 : s.release_gain ∈ Set.Icc (0 : ℝ) 1 := ⟨hr.1, hr.2.trans hg⟩
  have hu1 := (C51_rms_rule u hu0 (x n) (show u.attack_gain ∈ _ from h1 ▸ ha1) (show u.release_gain ∈ _ from h2 ▸ hr1)).2.2
  have hv1 := (C51_rms_rule v hv0 (x n) (show v.attack_gain ∈ _ from h3 ▸ ha1) (show v.release_gain ∈ _ from h4 ▸ hr1)).2.2
  refine ⟨⟨⟨h1, h2, h3, h4⟩, hu1, hv1, this⟩, ?_⟩
  show |√(u.process (x n)).1.envelope ^ 2 - √(v.process (x n)).1.envelope ^ 2| ≤ _
  rwa [Real.sq_sqrt hu1, Real.sq_sqrt hv1]

/-- **C89.** Two integrators with the same gain: the difference shrinks by exactly that factor per sample. -/
theorem C89_leaky_forgets (s t : LeakyIntegrator ℝ) (hg : s.getAlpha = t.getAlpha) (b : Build) (x : ℕ → ℝ) :
    ∃ y y', Responds b s x y ∧ Responds b t x y' ∧ ∀ n, y n - y' n = s.getAlpha ^ (n + 1) * (s.lastOut - t.lastOut) := by
  refine responds_pair leaky_never b
    (fun n u v => u.alpha = s.alpha ∧ v.alpha = s.alpha ∧ u.y_z1 - v.y_z1 = s.alpha ^ n * (s.y_z1 - t.y_z1))
    (fun n y y' => y - y' = s.alpha ^ (n + 1) * (s.y_z1 - t.y_z1)) x x ⟨rfl, hg.symm, by simp⟩ ?_
  rintro n u v u' v' y y' ⟨h1, h2, h3⟩ hu hv
  obtain ⟨rfl, rfl⟩ := Prod.mk.inj (Except.ok.inj hu)
  obtain ⟨rfl, rfl⟩ := Prod.mk.inj (Except.ok.inj hv)
  have : (u.process (x n)).2 - (v.process (x n)).2 = s.alpha ^ (n + 1) * (s.y_z1 - t.y_z1) := by
    show x n + u.alpha * (u.y_z1 - x n) - (x n + v.alpha * (v.y_z1 - x n)) = _
    rw [h1, h2, pow_succ']
    linear_combination s.alpha * h3
  exact ⟨⟨h1, h2, this⟩, this⟩

/-- Gains and states as required: what the setters store for 100 samples, one new and one that has seen a sample. -/
example : let s := ((PeakEnvDetector.new : PeakEnvDetector ℝ).setAttack 100).setRelease 100
    s.getAttackGain = (s.process 1).1.getAttackGain ∧ s.getAttackGain ∈ Set.Icc 0 (Real.exp (-1 / 100)) ∧
      s.getReleaseGain ∈ Set.Icc 0 (Real.exp (-1 / 100)) ∧ Real.exp (-1 / 100) < 1 := by
  obtain ⟨⟨h1, h2⟩, h3, -⟩ := C49_real 100 (by norm_num)
  refine ⟨rfl, ?_, ?_, h2⟩
  · rw [((C49_independent (100 : ℝ) 0).1 _).2.1, (h3 _).1]; exact ⟨h1.le, le_rfl⟩
  · rw [(h3 _).2]; exact ⟨h1.le, le_rfl⟩

/-! ## Floating point: order of the states is kept -/

section IEEE
variable {f : Fmt} {L : Libm f}

theorem smooth_values {g i e : Fl L} (hg : Fl.In 0 1 g) (hi : i.Finite) (he : e.Finite)
    (hov : FP.NoOvf f (e.toReal - i.toReal)) (hfin : (i +. g *. (e -. i)).Finite) :
    (i +. g *. (e -. i)).toReal = rnd f (i.toReal + rnd f (g.toReal * rnd f (e.toReal - i.toReal))) := by
  obtain ⟨hd, hd'⟩ := Fl.sub_val he hi hov
  obtain ⟨hm, hm'⟩ := Fl.mul_val hg.1 hd (Fl.noOvf_of_abs_le (y := e -. i) (by
    rw [abs_mul, abs_of_nonneg hg.2.1]
    have := abs_nonneg (e -. i).toReal
    nlinarith [hg.2.2]))
  by_cases h : FP.NoOvf f (i.toReal + (g *. (e -. i)).toReal)
  · rw [(Fl.add_val hi hm h).2, hm', hd']
  · exfalso
    generalize g *. (e -. i) = m at hm h hfin
    have e1 := FP.add_fin (f := f) hi hm
    change FP.Finite (FP.add (f := f) i m) at hfin
    rw [e1] at hfin
    have h' : ¬ FP.NoOvf f (FP.toReal (f := f) i + FP.toReal (f := f) m) := h
    rw [FP.ofReal_of_ovf h'] at hfin
    exact hfin

/-- The step keeps the order of two states, also when they are on different sides of the level. -/
theorem smooth_order {g g' i e e' : Fl L} (hg : Fl.In 0 1 g) (hg' : Fl.In 0 1 g') (hi : i.Finite) (he : e.Finite)
    (he' : e'.Finite) (ho : FP.NoOvf f (e.toReal - i.toReal)) (ho' : FP.NoOvf f (e'.toReal - i.toReal))
    (hfin : (i +. g *. (e -. i)).Finite) (hfin' : (i +. g' *. (e' -. i)).Finite) (h : e.toReal ≤ e'.toReal)
    (hc : g = g' ∨ (e.toReal ≤ i.toReal ∧ i.toReal ≤ e'.toReal)) :
    (i +. g *. (e -. i)).toReal ≤ (i +. g' *. (e' -. i)).toReal := by
  rw [smooth_values hg hi he ho hfin, smooth_values hg' hi he' ho' hfin']
  rcases hc with rfl | ⟨h1, h2⟩
  · have h1 : rnd f (e.toReal - i.toReal) ≤ rnd f (e'.toReal - i.toReal) := rnd_mono (by linarith)
    have h2 : rnd f (g.toReal * rnd f (e.toReal - i.toReal)) ≤ rnd f (g.toReal * rnd f (e'.toReal - i.toReal)) :=
      rnd_mono (mul_le_mul_of_nonneg_left h1 hg.2.1)
    exact rnd_mono (by linarith)
  · have k1 : rnd f (g.toReal * rnd f (e.toReal - i.toReal)) ≤ 0 :=
      rnd_nonpos (mul_nonpos_of_nonneg_of_nonpos hg.2.1 (rnd_nonpos (by linarith)))
    have k2 : 0 ≤ rnd f (g'.toReal * rnd f (e'.toReal - i.toReal)) :=
      rnd_nonneg (mul_nonneg hg'.2.1 (rnd_nonneg (by linarith)))
    exact rnd_mono (by linarith)

theorem noOvf_sub {B : ℝ} (hB : EvenSig f B) (hl : B < f.lim) {e i : Fl L} (he : Fl.In 0 B e) (hi : Fl.In 0 B i) :
    FP.NoOvf f (e.toReal - i.toReal) :=
  FP.noOvf_of_le hB.isRep hl (by rw [abs_le]; constructor <;> linarith [he.2.1, he.2.2, hi.2.1, hi.2.2])

/-- One step of either detector on the level `i`. -/
theorem detect_order {B : ℝ} (hB : EvenSig f B) (hl : B < f.lim) {a r i e e' : Fl L} (ha : Fl.In 0 1 a)
    (hr : Fl.In 0 1 r) (hi : Fl.In 0 B i) (he : Fl.In 0 B e) (he' : Fl.In 0 B e') (h : e.toReal ≤ e'.toReal) :
    Fl.In 0 B (i +. (if lt e i then a else r) *. (e -. i)) ∧ Fl.In 0 B (i +. (if lt e' i then a else r) *. (e' -. i)) ∧
      (i +. (if lt e i then a else r) *. (e -. i)).toReal ≤ (i +. (if lt e' i then a else r) *. (e' -. i)).toReal := by
  have hsel : ∀ w : Bool, Fl.In 0 1 (if w then a else r) := by intro w; cases w <;> simpa
  have mem : ∀ {e : Fl L} (w : Bool), Fl.In 0 B e → Fl.In 0 B (i +. (if w then a else r) *. (e -. i)) := fun {e} w he =>
    Fl.follow_mem hB hl (hsel w).1 (hsel w).2.1 (hsel w).2.2 hi.1 hi.2.1 hi.2.2 he.1 he.2.1 he.2.2
  refine ⟨mem _ he, mem _ he', ?_⟩
  refine smooth_order (hsel _) (hsel _) hi.1 he.1 he'.1 (noOvf_sub hB hl he hi) (noOvf_sub hB hl he' hi) (mem _ he).1
    (mem _ he').1 h ?_
  cases h1 : lt e i <;> cases h2 : lt e' i
  · exact .inl rfl
  · rw [Fl.lt_false_iff he.1 hi.1] at h1
    rw [Fl.lt_iff he'.1 hi.1] at h2
    linarith
  · rw [Fl.lt_iff he.1 hi.1] at h1
    rw [Fl.lt_false_iff he'.1 hi.1] at h2
    exact .inr ⟨h1.le, h2⟩
  · exact .inl rfl

/-- **C89.** Peak in floating point: of two detectors with the same gains in `[0, 1]` and the same samples in `[-B, B]`, the
one that starts higher is never lower (`B` as in C50). -/
theorem C89_peak_order {B : ℝ} (hB : EvenSig f B) (hl : B < f.lim) (s t : PeakEnvDetector (Fl L))
    (hga : s.getAttackGain = t.getAttackGain) (hgr : s.getReleaseGain = t.getReleaseGain)
    (ha : Fl.In 0 1 s.getAttackGain) (hr : Fl.In 0 1 s.getReleaseGain) (hs : Fl.In 0 B s.lastOut)
    (ht : Fl.In 0 B t.lastOut) (hst : le s.lastOut t.lastOut = true) (b : Build) (x : ℕ → Fl L)
    (hx : ∀ n, Fl.In (-B) B (x n)) :
    ∃ y y', Responds b s x y ∧ Responds b t x y' ∧ ∀ n, le (y n) (y' n) = true := by
  refine responds_pair (fun _ _ _ => ⟨_, _, rfl⟩) b
    (fun _ u v => (u.attack_gain = s.attack_gain ∧ u.release_gain = s.release_gain ∧ v.attack_gain = s.attack_gain ∧
      v.release_gain = s.release_gain) ∧ Fl.In 0 B u.envelope ∧ Fl.In 0 B v.envelope ∧
      u.envelope.toReal ≤ v.envelope.toReal)
    (fun _ y y' => le y y' = true) x x
    ⟨⟨rfl, rfl, hga.symm, hgr.symm⟩, hs, ht, (Fl.le_iff hs.1 ht.1).mp hst⟩ ?_
  rintro n u v u' v' y y' ⟨⟨h1, h2, h3, h4⟩, hu0, hv0, h5⟩ hu hv
  obtain ⟨rfl, rfl⟩ := Prod.mk.inj (Except.ok.inj hu)
  obtain ⟨rfl, rfl⟩ := Prod.mk.inj (Except.ok.inj hv)
  have hi : Fl.In 0 B (abs (x n)) :=
    ⟨Fl.abs_finite.mpr (hx n).1, by simp, by simpa using abs_le.mpr ⟨(hx n).2.1, (hx n).2.2⟩⟩
  have key := detect_order hB hl ha hr hi hu0 hv0 h5
  have eu : (u.process (x n)).2 = abs (x n) +. (if lt u.envelope (abs (x n)) then s.attack_gain else s.release_gain) *.
      (u.envelope -. abs (x n)) := by rw [← h1, ← h2]; rfl
  have ev : (v.process (x n)).2 = abs (x n) +. (if lt v.envelope (abs (x n)) then s.attack_gain else s.release_gain) *.
      (v.envelope -. abs (x n)) := by rw [← h3, ← h4]; rfl
  unfold PeakEnvDetector.getAttackGain PeakEnvDetector.getReleaseGain at key
  rw [← eu, ← ev] at key
  exact ⟨⟨⟨h1, h2, h3, h4⟩, key⟩, (Fl.le_iff key.1.1 key.2.1.1).mpr key.2.2⟩

/-- **C89.** The same for RMS, with samples in `[-1, 1]`. -/
theorem C89_rms_order (s t : RmsEnvDetector (Fl L))
    (hga : s.getAttackGain = t.getAttackGain) (hgr : s.getReleaseGain = t.getReleaseGain)
    (ha : Fl.In 0 1 s.getAttackGain) (hr : Fl.In 0 1 s.getReleaseGain) (hs : Fl.In 0 1 s.envelope)
    (ht : Fl.In 0 1 t.envelope) (hst : le s.envelope t.envelope = true) (b : Build) (x : ℕ → Fl L)
    (hx : ∀ n, Fl.In (-1) 1 (x n)) :
    ∃ y y', Responds b s x y ∧ Responds b t x y' ∧ ∀ n, le (y n) (y' n) = true := by
  refine responds_pair (fun _ _ _ => ⟨_, _, rfl⟩) b
    (fun _ u v => (u.attack_gain = s.attack_gain ∧ u.release_gain = s.release_gain ∧ v.attack_gain = s.attack_gain ∧
      v.release_gain = s.release_gain) ∧ Fl.In 0 1 u.envelope ∧ Fl.In 0 1 v.envelope ∧
      u.envelope.toReal ≤ v.envelope.toReal)
    (fun _ y y' => le y y' = true) x x
    ⟨⟨rfl, rfl, hga.symm, hgr.symm⟩, hs, ht, (Fl.le_iff hs.1 ht.1).mp hst⟩ ?_
  rintro n u v u' v' y y' ⟨⟨h1, h2, h3, h4⟩, hu0, hv0, h5⟩ hu hv
  obtain ⟨rfl, rfl⟩ := Prod.mk.inj (Except.ok.inj hu)
  obtain ⟨rfl, rfl⟩ := Prod.mk.inj (Except.ok.inj hv)
  have hsq : (x n).toReal * (x n).toReal ≤ 1 := by nlinarith [(hx n).2.1, (hx n).2.2]
  have hsq0 : 0 ≤ (x n).toReal * (x n).toReal := mul_self_nonneg _
  have hm := Fl.mul_val (hx n).1 (hx n).1 (FP.noOvf_of_le (isRep_one f) (FP.one_lt_lim f) (by rwa [abs_of_nonneg hsq0]))
  have hi : Fl.In 0 1 (x n *. x n) :=
    ⟨hm.1, by rw [hm.2]; exact rnd_nonneg hsq0, by rw [hm.2]; exact rnd_le_of_le (isRep_one f) hsq⟩
  have key := detect_order (evenSig_one f) (FP.one_lt_lim f) ha hr hi hu0 hv0 h5
  have eu : (u.process (x n)).1.envelope = x n *. x n +. (if lt u.envelope (x n *. x n) then s.attack_gain else
      s.release_gain) *. (u.envelope -. x n *. x n) := by rw [← h1, ← h2]; rfl
  have ev : (v.process (x n)).1.envelope = x n *. x n +. (if lt v.envelope (x n *. x n) then s.attack_gain else
      s.release_gain) *. (v.envelope -. x n *. x n) := by rw [← h3, ← h4]; rfl
  unfold RmsEnvDetector.getAttackGain RmsEnvDetector.getReleaseGain at key
  rw [← eu, ← ev] at key
  refine ⟨⟨⟨h1, h2, h3, h4⟩, key⟩, ?_⟩
  show le (FloatOps.sqrt (u.process (x n)).1.envelope) (FloatOps.sqrt (v.process (x n)).1.envelope) = true
  rw [Fl.le_iff (sqrt_unit key.1).1 (sqrt_unit key.2.1).1, (Fl.sqrt_val key.1.1 key.1.2.1).2,
    (Fl.sqrt_val key.2.1.1 key.2.1.2.1).2]
  exact rnd_mono (Real.sqrt_le_sqrt key.2.2)

/-- **C89.** The same for the integrator, with samples and outputs in `[lo, hi]` and any gain `set_alpha` accepts. -/
theorem C89_leaky_order {lo hi : ℝ} (hw : FP.NoOvf f (hi - lo)) (s t : LeakyIntegrator (Fl L))
    (hg : s.getAlpha = t.getAlpha) (ha : Fl.In 0 1 s.getAlpha) (ha1 : s.getAlpha.toReal < 1) (hs : Fl.In lo hi s.lastOut)
    (ht : Fl.In lo hi t.lastOut) (hst : le s.lastOut t.lastOut = true) (b : Build) (x : ℕ → Fl L)
    (hx : ∀ n, Fl.In lo hi (x n)) :
    ∃ y y', Responds b s x y ∧ Responds b t x y' ∧ ∀ n, le (y n) (y' n) = true := by
  refine responds_pair (fun _ _ _ => ⟨_, _, rfl⟩) b
    (fun _ u v => (u.alpha = s.alpha ∧ v.alpha = s.alpha) ∧ Fl.In lo hi u.y_z1 ∧ Fl.In lo hi v.y_z1 ∧
      u.y_z1.toReal ≤ v.y_z1.toReal)
    (fun _ y y' => le y y' = true) x x ⟨⟨rfl, hg.symm⟩, hs, ht, (Fl.le_iff hs.1 ht.1).mp hst⟩ ?_
  rintro n u v u' v' y y' ⟨⟨h1, h2⟩, hu0, hv0, h5⟩ hu hv
  obtain ⟨rfl, rfl⟩ := Prod.mk.inj (Except.ok.inj hu)
  obtain ⟨rfl, rfl⟩ := Prod.mk.inj (Except.ok.inj hv)
  have nov : ∀ {e : Fl L}, Fl.In lo hi e → FP.NoOvf f (e.toReal - (x n).toReal) := fun {e} he => by
    unfold FP.NoOvf at *
    have hle : |e.toReal - (x n).toReal| ≤ hi - lo := by
      rw [abs_le]; constructor <;> linarith [he.2.1, he.2.2, (hx n).2.1, (hx n).2.2]
    rw [abs_rnd] at hw ⊢
    exact (rnd_mono (hle.trans (le_abs_self _))).trans_lt hw
  have mem : ∀ {e : Fl L}, Fl.In lo hi e → Fl.In lo hi (x n +. s.alpha *. (e -. x n)) := fun {e} he => by
    obtain ⟨k1, k2, k3⟩ := Fl.smooth_between ha.1 ha.2.1 ha1 (hx n).1 he.1 (nov he)
    exact ⟨k1, (le_min (hx n).2.1 he.2.1).trans k2, k3.trans (max_le (hx n).2.2 he.2.2)⟩
  have key := smooth_order ha ha (hx n).1 hu0.1 hv0.1 (nov hu0) (nov hv0) (mem hu0).1 (mem hv0).1 h5 (.inl rfl)
  have eu : (u.process (x n)).2 = x n +. s.alpha *. (u.y_z1 -. x n) := by rw [← h1]; rfl
  have ev : (v.process (x n)).2 = x n +. s.alpha *. (v.y_z1 -. x n) := by rw [← h2]; rfl
  have mu := mem hu0
  have mv := mem hv0
  unfold LeakyIntegrator.getAlpha at key
  rw [← eu] at mu key
  rw [← ev] at mv key
  exact ⟨⟨⟨h1, h2⟩, mu, mv, key⟩, (Fl.le_iff mu.1 mv.1).mpr key⟩

/-- A new detector, one whose last output was 1, and a constant input of 1 meet the conditions with `B = 1`; `binary32`
has the precision the counterexamples below need. -/
example : let s : PeakEnvDetector (Fl L) := PeakEnvDetector.new
    let t : PeakEnvDetector (Fl L) := { s with envelope := one }
    EvenSig f 1 ∧ 1 < f.lim ∧ Fl.In 0 1 s.getAttackGain ∧ Fl.In 0 1 s.lastOut ∧ Fl.In 0 1 t.lastOut ∧
      le s.lastOut t.lastOut = true ∧ Fl.In (-1) 1 (one : Fl L) ∧ 3 ≤ binary32.p := by
  refine ⟨evenSig_one f, FP.one_lt_lim f, zero_in zero_le_one, zero_in zero_le_one, ⟨Fl.one_finite, ?_, ?_⟩, ?_,
    ⟨Fl.one_finite, ?_, ?_⟩, by decide⟩
  · simp [PeakEnvDetector.lastOut]
  · simp [PeakEnvDetector.lastOut]
  · show le (zero : Fl L) one = true
    rw [Fl.le_iff Fl.zero_finite Fl.one_finite]; simp
  · simp
  · simp

/-! ## Floating point: order of the samples is not kept -/

/-- The step with `2^p` for the state and `1 - 2^-p` for the factor: the sample `1/2` gives `2^p`, the larger `3/4` gives
`2^p - 1`. -/
theorem smooth_reversed (hp3 : 3 ≤ f.p) {g e i j : Fl L} (hg : g.Finite) (he : e.Finite) (hi : i.Finite) (hj : j.Finite)
    (hgv : g.toReal = 1 - (2 ^ f.p)⁻¹) (hev : e.toReal = 2 ^ f.p) (hiv : i.toReal = 1 / 2) (hjv : j.toReal = 3 / 4) :
    (i +. g *. (e -. i)).Finite ∧ (i +. g *. (e -. i)).toReal = 2 ^ f.p ∧
      (j +. g *. (e -. j)).Finite ∧ (j +. g *. (e -. j)).toReal = 2 ^ f.p - 1 := by
  have hemin := f.hemin; have hemax := f.hemax
  obtain ⟨k, hk⟩ : ∃ k, f.p = k + 3 := ⟨f.p - 3, by omega⟩
  have hPZ : (8 : ℤ) ≤ 2 ^ f.p := by
    rw [hk, pow_add]; have : (1 : ℤ) ≤ 2 ^ k := one_le_pow₀ (by norm_num); linarith
  have hP : (8 : ℝ) ≤ 2 ^ f.p := by exact_mod_cast hPZ
  have hlim : (2 : ℝ) ^ f.p < f.lim := by
    unfold Fmt.lim
    rw [← zpow_natCast]
    exact zpow_lt_zpow_right₀ (by norm_num) (by omega)
  have hhalf : (2 : ℝ) ^ (f.p - 1) = 2 ^ f.p / 2 := by
    rw [hk, show k + 3 - 1 = k + 2 by omega, pow_succ (2 : ℝ) (k + 2)]; ring
  have hodd : Odd ((2 : ℤ) ^ f.p - 1) := by
    rw [hk, pow_succ]
    exact ⟨2 ^ (k + 2) - 1, by ring⟩
  -- rounding in the binade below `2^p`
  have near : ∀ (x : ℝ) (n : ℤ), 2 ^ f.p / 2 ≤ x → x < 2 ^ f.p → |x - n| < 1 / 2 → rnd f x = n := by
    intro x n h1 h2 h3
    have hc := cexp_eq_zero (f := f) (x := x) (by rw [hhalf]; exact h1) h2
    unfold rnd
    rw [hc, zpow_zero, div_one, mul_one, rne_eq_of_lt h3]
  have r1 : rnd f (2 ^ f.p - 1 / 2) = 2 ^ f.p := by
    have hc := cexp_eq_zero (f := f) (x := 2 ^ f.p - 1 / 2) (by rw [hhalf]; linarith) (by linarith)
    unfold rnd
    rw [hc, zpow_zero, div_one, mul_one]
    have h1 : (2 : ℝ) ^ f.p - 1 / 2 = (((2 : ℤ) ^ f.p - 1 : ℤ) : ℝ) + 1 / 2 := by push_cast; ring
    rw [h1, rne_half_odd hodd]
    push_cast; ring
  have nov : ∀ {x v : ℝ}, rnd f x = v → 0 ≤ v → v ≤ 2 ^ f.p → FP.NoOvf f x := by
    intro x v h h0 h1
    show |rnd f x| < _
    rw [h, abs_of_nonneg h0]; exact h1.trans_lt hlim
  have hPi : ((2 : ℝ) ^ f.p)⁻¹ * 2 ^ f.p = 1 := inv_mul_cancel₀ (by positivity)
  have hPi0 : (0 : ℝ) < (2 ^ f.p)⁻¹ := by positivity
  have hPi1 : ((2 : ℝ) ^ f.p)⁻¹ ≤ 1 / 8 := by rw [inv_le_comm₀ (by positivity) (by norm_num)]; norm_num; exact hP
  have r2 : rnd f ((1 - (2 ^ f.p)⁻¹) * 2 ^ f.p) = 2 ^ f.p - 1 := by
    have := near ((1 - (2 ^ f.p)⁻¹) * 2 ^ f.p) (2 ^ f.p - 1) (by linarith) (by linarith) (by
      push_cast; rw [show (1 - ((2 : ℝ) ^ f.p)⁻¹) * 2 ^ f.p - (2 ^ f.p - 1) = 0 by linarith]; norm_num)
    rw [this]; push_cast; ring
  have r3 : rnd f (2 ^ f.p - 3 / 4) = 2 ^ f.p - 1 := by
    have := near (2 ^ f.p - 3 / 4) (2 ^ f.p - 1) (by linarith) (by linarith) (by
      push_cast; rw [show ((2 : ℝ) ^ f.p) - 3 / 4 - (2 ^ f.p - 1) = 1 / 4 by ring]; norm_num)
    rw [this]; push_cast; ring
  have r4 : rnd f ((1 - (2 ^ f.p)⁻¹) * (2 ^ f.p - 1)) = 2 ^ f.p - 2 := by
    have h1 : (1 - ((2 : ℝ) ^ f.p)⁻¹) * (2 ^ f.p - 1) = 2 ^ f.p - 2 + (2 ^ f.p)⁻¹ := by linear_combination -hPi
    have := near ((1 - (2 ^ f.p)⁻¹) * (2 ^ f.p - 1)) (2 ^ f.p - 2) (by linarith) (by linarith) (by
      rw [h1]; push_cast; rw [add_sub_cancel_left, abs_of_pos hPi0]; linarith)
    rw [this]; push_cast; ring
  have r5 : rnd f (3 / 4 + (2 ^ f.p - 2)) = 2 ^ f.p - 1 := by
    have := near (3 / 4 + (2 ^ f.p - 2)) (2 ^ f.p - 1) (by linarith) (by linarith) (by
      push_cast; rw [show 3 / 4 + ((2 : ℝ) ^ f.p - 2) - (2 ^ f.p - 1) = -(1 / 4) by ring]; norm_num)
    rw [this]; push_cast; ring
  obtain ⟨d1, d1'⟩ := Fl.sub_val he hi (by rw [hev, hiv]; exact nov r1 (by linarith) le_rfl)
  rw [hev, hiv, r1] at d1'
  obtain ⟨m1, m1'⟩ := Fl.mul_val hg d1 (by rw [hgv, d1']; exact nov r2 (by linarith) (by linarith))
  rw [hgv, d1', r2] at m1'
  have e1 : (1 : ℝ) / 2 + (2 ^ f.p - 1) = 2 ^ f.p - 1 / 2 := by ring
  obtain ⟨a1, a1'⟩ := Fl.add_val hi m1 (by rw [hiv, m1', e1]; exact nov r1 (by linarith) le_rfl)
  rw [hiv, m1', e1, r1] at a1'
  obtain ⟨d2, d2'⟩ := Fl.sub_val he hj (by rw [hev, hjv]; exact nov r3 (by linarith) (by linarith))
  rw [hev, hjv, r3] at d2'
  obtain ⟨m2, m2'⟩ := Fl.mul_val hg d2 (by rw [hgv, d2']; exact nov r4 (by linarith) (by linarith))
  rw [hgv, d2', r4] at m2'
  obtain ⟨a2, a2'⟩ := Fl.add_val hj m2 (by rw [hjv, m2']; exact nov r5 (by linarith) (by linarith))
  rw [hjv, m2', r5] at a2'
  exact ⟨a1, a1', a2, a2'⟩

theorem reversed_values (L : Libm f) (hp3 : 3 ≤ f.p) : ∃ g e i j : Fl L, g.Finite ∧ e.Finite ∧ i.Finite ∧ j.Finite ∧
    g.toReal = 1 - (2 ^ f.p)⁻¹ ∧ e.toReal = 2 ^ f.p ∧ i.toReal = 1 / 2 ∧ j.toReal = 3 / 4 := by
  have hemin := f.hemin; have hemax := f.hemax
  have hlim : (2 : ℝ) ^ f.p < f.lim := by
    unfold Fmt.lim
    rw [← zpow_natCast]
    exact zpow_lt_zpow_right₀ (by norm_num) (by omega)
  have h1 := FP.one_lt_lim f
  have hPZ : (8 : ℤ) ≤ 2 ^ f.p := by
    obtain ⟨k, hk⟩ : ∃ k, f.p = k + 3 := ⟨f.p - 3, by omega⟩
    rw [hk, pow_add]; have : (1 : ℤ) ≤ 2 ^ k := one_le_pow₀ (by norm_num); linarith
  have hP : (8 : ℝ) ≤ 2 ^ f.p := by exact_mod_cast hPZ
  have hPi0 : (0 : ℝ) < (2 ^ f.p)⁻¹ := by positivity
  have hPi1 : ((2 : ℝ) ^ f.p)⁻¹ ≤ 1 / 8 := by rw [inv_le_comm₀ (by positivity) (by norm_num)]; norm_num; exact hP
  obtain ⟨g, hg⟩ := Fl.exists_of_isRep L (v := 1 - (2 ^ f.p)⁻¹) (by
    have := isRep_of_le (f := f) (m := 2 ^ f.p - 1) (e := -f.p) (by rw [abs_of_nonneg (by linarith)]; linarith) (by omega)
    have e : (((2 : ℤ) ^ f.p - 1 : ℤ) : ℝ) * (2 : ℝ) ^ (-(f.p : ℤ)) = 1 - (2 ^ f.p)⁻¹ := by
      rw [zpow_neg, zpow_natCast]; push_cast
      rw [sub_mul, mul_inv_cancel₀ (by positivity), one_mul]
    rwa [e] at this) (by rw [abs_of_nonneg (by linarith)]; linarith)
  obtain ⟨e, he⟩ := Fl.exists_of_isRep L (v := 2 ^ f.p) (by
    have := isRep_int (f := f) (n := 2 ^ f.p) (by rw [abs_of_nonneg (by linarith)])
    push_cast at this; exact this) (by rw [abs_of_nonneg (by linarith)]; exact hlim)
  obtain ⟨i, hi⟩ := Fl.exists_of_isRep L (v := 1 / 2) (by
    have := isRep_of_le (f := f) (m := 1) (e := -1) (by rw [abs_of_nonneg (by norm_num)]; linarith) (by omega)
    norm_num at this ⊢; exact this) (by rw [abs_of_nonneg (by norm_num)]; linarith)
  obtain ⟨j, hj⟩ := Fl.exists_of_isRep L (v := 3 / 4) (by
    have := isRep_of_le (f := f) (m := 3) (e := -2) (by rw [abs_of_nonneg (by norm_num)]; linarith) (by omega)
    norm_num at this ⊢; exact this) (by rw [abs_of_nonneg (by norm_num)]; linarith)
  exact ⟨g, e, i, j, hg.1, he.1, hi.1, hj.1, hg.2, he.2, hi.2, hj.2⟩

/-- **C89.** Monotonicity in the samples (C51) fails in floating point, for the integrator: there is a history after which
a larger sample gives a strictly smaller output. -/
theorem C89_leaky_not_monotone (L : Libm f) (hp3 : 3 ≤ f.p) : ∃ (s : LeakyIntegrator (Fl L)) (i j : Fl L),
    s.Reach Fl.Finite ∧ lt i j = true ∧ lt (s.process j).2 (s.process i).2 = true := by
  obtain ⟨g, e, i, j, hg, he, hi, hj, hgv, hev, hiv, hjv⟩ := reversed_values L hp3
  have hP : (1 : ℝ) < 2 ^ f.p := one_lt_pow₀ (by norm_num) (by omega)
  have hz := (Fl.sub_zero_val (x := (zero : Fl L)) (z := zero) Fl.zero_finite Fl.zero_finite (by simp))
  -- a new integrator (gain 0) returns the sample
  have hov : FP.NoOvf f ((zero : Fl L).toReal - e.toReal) := by
    rw [Fl.zero_toReal, zero_sub]
    exact Fl.noOvf_of_abs_le (y := e) (by rw [abs_neg])
  obtain ⟨hd, -⟩ := Fl.sub_val Fl.zero_finite he hov
  obtain ⟨hm, hm'⟩ := Fl.zero_mul_val hd
  obtain ⟨hs, hs'⟩ := Fl.add_zero_val he hm hm'
  let s1 := ((LeakyIntegrator.new : LeakyIntegrator (Fl L)).process e).1
  have hacc := C45_setAlpha_accepts s1 g hg (by
    rw [hgv, sub_nonneg]; exact inv_le_one_of_one_le₀ hP.le) (by rw [hgv]; have : (0 : ℝ) < (2 ^ f.p)⁻¹ := by positivity
                                                                 linarith)
  refine ⟨s1.setAlpha g, i, j, .setAlpha g (.process e .new he), ?_, ?_⟩
  · rw [Fl.lt_iff hi hj, hiv, hjv]; norm_num
  · have hy : (s1.y_z1).Finite := hs
    have hyv : (s1.y_z1).toReal = 2 ^ f.p := hs'.trans hev
    obtain ⟨k1, k2, k3, k4⟩ := smooth_reversed hp3 hg hy hi hj hgv hyv hiv hjv
    rw [hacc]
    show lt (j +. g *. (s1.y_z1 -. j)) (i +. g *. (s1.y_z1 -. i)) = true
    rw [Fl.lt_iff k3 k1, k2, k4]
    linarith

/-- **C89.** And for the peak detector, with gains in `[0, 1]` and a finite envelope. -/
theorem C89_peak_not_monotone (L : Libm f) (hp3 : 3 ≤ f.p) : ∃ (s : PeakEnvDetector (Fl L)) (i j : Fl L),
    Fl.In 0 1 s.getAttackGain ∧ Fl.In 0 1 s.getReleaseGain ∧ Fl.In 0 (2 ^ f.p) s.lastOut ∧ Fl.In 0 1 i ∧ Fl.In 0 1 j ∧
      lt i j = true ∧ lt (s.process j).2 (s.process i).2 = true := by
  obtain ⟨g, e, i, j, hg, he, hi, hj, hgv, hev, hiv, hjv⟩ := reversed_values L hp3
  have hP : (1 : ℝ) < 2 ^ f.p := one_lt_pow₀ (by norm_num) (by omega)
  have hPi0 : (0 : ℝ) < (2 ^ f.p)⁻¹ := by positivity
  have hPi1 : ((2 : ℝ) ^ f.p)⁻¹ ≤ 1 := inv_le_one_of_one_le₀ hP.le
  refine ⟨{ attack_gain := zero, release_gain := g, envelope := e }, i, j, zero_in zero_le_one,
    ⟨hg, by rw [PeakEnvDetector.getReleaseGain, hgv]; linarith, by rw [PeakEnvDetector.getReleaseGain, hgv]; linarith⟩,
    ⟨he, by rw [PeakEnvDetector.lastOut, hev]; positivity, by rw [PeakEnvDetector.lastOut, hev]⟩,
    ⟨hi, by rw [hiv]; norm_num, by rw [hiv]; norm_num⟩, ⟨hj, by rw [hjv]; norm_num, by rw [hjv]; norm_num⟩, ?_, ?_⟩
  · rw [Fl.lt_iff hi hj, hiv, hjv]; norm_num
  · have ai : (abs i).Finite := Fl.abs_finite.mpr hi
    have aj : (abs j).Finite := Fl.abs_finite.mpr hj
    have aiv : (abs i).toReal = 1 / 2 := by rw [Fl.abs_toReal, hiv]; norm_num
    have ajv : (abs j).toReal = 3 / 4 := by rw [Fl.abs_toReal, hjv]; norm_num
    obtain ⟨k1, k2, k3, k4⟩ := smooth_reversed hp3 hg he ai aj hgv hev aiv ajv
    show lt (abs j +. (if lt e (abs j) then _ else g) *. (e -. abs j))
      (abs i +. (if lt e (abs i) then _ else g) *. (e -. abs i)) = true
    have l1 : lt e (abs i) = false := by rw [Fl.lt_false_iff he ai, hev, aiv]; linarith
    have l2 : lt e (abs j) = false := by rw [Fl.lt_false_iff he aj, hev, ajv]; linarith
    rw [l1, l2]
    show lt (abs j +. g *. (e -. abs j)) (abs i +. g *. (e -. abs i)) = true
    rw [Fl.lt_iff k3 k1, k2, k4]
    linarith

end IEEE

end Rasp
