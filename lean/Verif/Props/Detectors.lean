import Verif.Props.EnvelopeScale

/-!
# C101: the detectors compared with each other and with the integrator
-/

namespace Rasp
open FloatOps

/-! ## Equal gains: the detectors are integrators -/

/-- **C101.** With equal attack and release gains PeakEnvDetector is a LeakyIntegrator fed with magnitudes, and RmsEnvDetector the square
root of a LeakyIntegrator fed with squares, in any arithmetic, bit for bit. -/
theorem C101_equal_gains {T : Type} [FloatOps T] (b : Build) (i : LeakyIntegrator T) (x y : ℕ → T) :
    (∀ d : PeakEnvDetector T, d.getAttackGain = i.getAlpha → d.getReleaseGain = i.getAlpha → d.lastOut = i.lastOut →
      (Responds b d x y ↔ Responds b i (fun n => abs (x n)) y)) ∧
    (∀ d : RmsEnvDetector T, d.getAttackGain = i.getAlpha → d.getReleaseGain = i.getAlpha → d.envelope = i.lastOut →
      (Responds b d x y ↔ ∃ v, Responds b i (fun n => x n *. x n) v ∧ ∀ n, y n = FloatOps.sqrt (v n))) := by
  constructor
  · intro d ha hr he
    constructor
    · rintro ⟨st, h0, h⟩
      have inv : ∀ n, (st n).attack_gain = i.alpha ∧ (st n).release_gain = i.alpha := by
        intro n
        induction n with
        | zero => rw [h0]; exact ⟨ha, hr⟩
        | succ n ih => rw [← (Prod.mk.inj (Except.ok.inj (h n))).1]; exact ih
      refine ⟨fun n => ⟨i.alpha, (st n).envelope⟩, ?_, fun n => ?_⟩
      · show LeakyIntegrator.mk i.alpha (st 0).envelope = i
        rw [h0, show d.envelope = i.y_z1 from he]
      · obtain ⟨e1, e2⟩ := Prod.mk.inj (Except.ok.inj (h n))
        have k : abs (x n) +. i.alpha *. ((st n).envelope -. abs (x n)) = y n := by
          rw [← e2]
          show _ = abs (x n) +. (if lt (st n).envelope (abs (x n)) then (st n).attack_gain else (st n).release_gain) *.
            ((st n).envelope -. abs (x n))
          rw [(inv n).1, (inv n).2, ite_self]
        have k' : (st (n + 1)).envelope = y n := by rw [← e1, ← e2]
        show _ = (Except.ok (LeakyIntegrator.mk i.alpha (st (n + 1)).envelope, y n) : Res _)
        rw [k']
        exact congrArg (fun v => (Except.ok (LeakyIntegrator.mk i.alpha v, v) : Res _)) k
    · rintro ⟨st, h0, h⟩
      have inv : ∀ n, (st n).alpha = i.alpha := by
        intro n
        induction n with
        | zero => rw [h0]
        | succ n ih => rw [← (Prod.mk.inj (Except.ok.inj (h n))).1]; exact ih
      refine ⟨fun n => ⟨i.alpha, i.alpha, (st n).y_z1⟩, ?_, fun n => ?_⟩
      · show PeakEnvDetector.mk i.alpha i.alpha (st 0).y_z1 = d
        rw [h0, show i.y_z1 = d.envelope from he.symm]
        exact congrArg₂ (fun a r => PeakEnvDetector.mk a r d.envelope) ha.symm hr.symm
      · obtain ⟨e1, e2⟩ := Prod.mk.inj (Except.ok.inj (h n))
        have k : abs (x n) +. (if lt (st n).y_z1 (abs (x n)) then i.alpha else i.alpha) *. ((st n).y_z1 -. abs (x n)) = y n := by
          rw [ite_self, ← e2, ← inv n]
        have k' : (st (n + 1)).y_z1 = y n := by rw [← e1, ← e2]
        show _ = (Except.ok (PeakEnvDetector.mk i.alpha i.alpha (st (n + 1)).y_z1, y n) : Res _)
        rw [k']
        exact congrArg (fun v => (Except.ok (PeakEnvDetector.mk i.alpha i.alpha v, v) : Res _)) k
  · intro d ha hr he
    constructor
    · rintro ⟨st, h0, h⟩
      have inv : ∀ n, (st n).attack_gain = i.alpha ∧ (st n).release_gain = i.alpha := by
        intro n
        induction n with
        | zero => rw [h0]; exact ⟨ha, hr⟩
        | succ n ih => rw [← (Prod.mk.inj (Except.ok.inj (h n))).1]; exact ih
      refine ⟨fun n => (st (n + 1)).envelope, ⟨fun n => ⟨i.alpha, (st n).envelope⟩, ?_, fun n => ?_⟩, fun n => ?_⟩
      · show LeakyIntegrator.mk i.alpha (st 0).envelope = i
        rw [h0, show d.envelope = i.y_z1 from he]
      · obtain ⟨e1, e2⟩ := Prod.mk.inj (Except.ok.inj (h n))
        have k : x n *. x n +. i.alpha *. ((st n).envelope -. x n *. x n) = (st (n + 1)).envelope := by
          rw [← e1]
          show _ = x n *. x n +. (if lt (st n).envelope (x n *. x n) then (st n).attack_gain else (st n).release_gain) *.
            ((st n).envelope -. x n *. x n)
          rw [(inv n).1, (inv n).2, ite_self]
        exact congrArg (fun v => (Except.ok (LeakyIntegrator.mk i.alpha v, v) : Res _)) k
      · obtain ⟨e1, e2⟩ := Prod.mk.inj (Except.ok.inj (h n))
        show y n = FloatOps.sqrt (st (n + 1)).envelope
        rw [← e1, ← e2]
    · rintro ⟨v, ⟨st, h0, h⟩, hv⟩
      have inv : ∀ n, (st n).alpha = i.alpha := by
        intro n
        induction n with
        | zero => rw [h0]
        | succ n ih => rw [← (Prod.mk.inj (Except.ok.inj (h n))).1]; exact ih
      refine ⟨fun n => ⟨i.alpha, i.alpha, (st n).y_z1⟩, ?_, fun n => ?_⟩
      · show RmsEnvDetector.mk i.alpha i.alpha (st 0).y_z1 = d
        rw [h0, show i.y_z1 = d.envelope from he.symm]
        exact congrArg₂ (fun a r => RmsEnvDetector.mk a r d.envelope) ha.symm hr.symm
      · obtain ⟨e1, e2⟩ := Prod.mk.inj (Except.ok.inj (h n))
        have k : x n *. x n +. (if lt (st n).y_z1 (x n *. x n) then i.alpha else i.alpha) *. ((st n).y_z1 -. x n *. x n) = v n := by
          rw [ite_self, ← e2, ← inv n]
        have k' : (st (n + 1)).y_z1 = v n := by rw [← e1, ← e2]
        show _ = (Except.ok (RmsEnvDetector.mk i.alpha i.alpha (st (n + 1)).y_z1, y n) : Res _)
        rw [k', hv]
        exact congrArg (fun v => (Except.ok (RmsEnvDetector.mk i.alpha i.alpha v, FloatOps.sqrt v) : Res _)) k

/-! ## RMS against peak -/

/-- One step: the square of the followed magnitude is at most the followed square. -/
theorem followed_sq_le {a r p q l : ℝ} (ha : a ∈ Set.Icc (0 : ℝ) 1) (hr : r ∈ Set.Icc (0 : ℝ) 1) (hl : 0 ≤ l) (hp : 0 ≤ p) (hpq : p ^ 2 ≤ q) :
    followed a r p l ^ 2 ≤ followed a r q (l ^ 2) ∧ 0 ≤ followed a r p l := by
  obtain ⟨a0, a1⟩ := ha
  obtain ⟨r0, r1⟩ := hr
  have conv : ∀ g : ℝ, 0 ≤ g → g ≤ 1 → (l + g * (p - l)) ^ 2 ≤ l ^ 2 + g * (q - l ^ 2) := fun g g0 g1 => by
    nlinarith [mul_nonneg (mul_nonneg g0 (sub_nonneg.mpr g1)) (sq_nonneg (p - l)), mul_le_mul_of_nonneg_left hpq g0]
  have pos : ∀ g : ℝ, 0 ≤ g → g ≤ 1 → 0 ≤ l + g * (p - l) := fun g g0 g1 => by
    nlinarith [mul_nonneg g0 hp, mul_nonneg (sub_nonneg.mpr g1) hl]
  unfold followed
  split_ifs with h h' h'
  · exact ⟨conv a a0 a1, pos a a0 a1⟩
  · -- the magnitude is above the peak reading but below the RMS reading
    push Not at h'
    refine ⟨?_, pos a a0 a1⟩
    have h1 : l + a * (p - l) ≤ l := by nlinarith
    have h2 : (l + a * (p - l)) ^ 2 ≤ l ^ 2 := pow_le_pow_left₀ (pos a a0 a1) h1 2
    nlinarith
  · push Not at h
    have : l ^ 2 ≤ p ^ 2 := pow_le_pow_left₀ hl h 2
    linarith
  · exact ⟨conv r r0 r1, pos r r0 r1⟩

/-- **C101.** Exact arithmetic: with the same gains in `[0, 1]` an RMS detector never reads less than a peak detector that starts no
higher, whatever the signal. -/
theorem C101_rms_not_below_peak (p : PeakEnvDetector ℝ) (q : RmsEnvDetector ℝ) (hga : p.getAttackGain = q.getAttackGain)
    (hgr : p.getReleaseGain = q.getReleaseGain) (ha : p.getAttackGain ∈ Set.Icc (0 : ℝ) 1) (hr : p.getReleaseGain ∈ Set.Icc (0 : ℝ) 1)
    (hp : 0 ≤ p.lastOut) (hq : 0 ≤ q.envelope) (hpq : p.lastOut ≤ q.lastOut) (b : Build) (x : ℕ → ℝ) :
    ∃ y z, Responds b p x y ∧ Responds b q x z ∧ ∀ n, y n ≤ z n := by
  obtain ⟨y, st, h0, h⟩ := NeverPanics.responds peak_never b p x
  obtain ⟨z, st', h0', h'⟩ := NeverPanics.responds rms_never b q x
  refine ⟨y, z, ⟨st, h0, h⟩, ⟨st', h0', h'⟩, ?_⟩
  have inv : ∀ n, (st n).attack_gain = p.attack_gain ∧ (st n).release_gain = p.release_gain ∧ (st' n).attack_gain = p.attack_gain ∧
      (st' n).release_gain = p.release_gain ∧ 0 ≤ (st n).envelope ∧ (st n).envelope ^ 2 ≤ (st' n).envelope := by
    intro n
    induction n with
    | zero =>
      rw [h0, h0']
      refine ⟨rfl, rfl, hga.symm, hgr.symm, hp, ?_⟩
      rw [← Real.sq_sqrt hq]
      exact pow_le_pow_left₀ hp hpq 2
    | succ n ih =>
      obtain ⟨i1, i2, i3, i4, i5, i6⟩ := ih
      have s1 : ((st n).process (x n)).1 = st (n + 1) := (Prod.mk.inj (Except.ok.inj (h n))).1
      have s2 : ((st' n).process (x n)).1 = st' (n + 1) := (Prod.mk.inj (Except.ok.inj (h' n))).1
      rw [← s1, ← s2]
      have k := followed_sq_le ha hr (abs_nonneg (x n)) i5 i6
      rw [sq_abs] at k
      refine ⟨i1, i2, i3, i4, ?_, ?_⟩
      · rw [peak_envelope, i1, i2]; exact k.2
      · rw [peak_envelope, rms_envelope, i1, i2, i3, i4]; exact k.1
  intro n
  obtain ⟨-, -, -, -, i5, i6⟩ := inv (n + 1)
  have e1 : y n = (st (n + 1)).envelope := by
    obtain ⟨k1, k2⟩ := Prod.mk.inj (Except.ok.inj (h n)); rw [← k1, ← k2]
  have e2 : z n = Real.sqrt (st' (n + 1)).envelope := by
    obtain ⟨k1, k2⟩ := Prod.mk.inj (Except.ok.inj (h' n)); rw [← k1, ← k2]; rfl
  rw [e1, e2]
  exact Real.le_sqrt_of_sq_le i6

/-- **C101.** For new detectors set to the same attack and release lengths (invalid ones, which are ignored, included). -/
theorem C101_rms_not_below_peak_new (m n : ℝ) (b : Build) (x : ℕ → ℝ) :
    ∃ y z, Responds b (((PeakEnvDetector.new : PeakEnvDetector ℝ).setAttack m).setRelease n) x y ∧
      Responds b (((RmsEnvDetector.new : RmsEnvDetector ℝ).setAttack m).setRelease n) x z ∧ ∀ n, y n ≤ z n := by
  have g : ∀ m : ℝ, (if lt zero m && isFinite m then Real.exp (-1 / m) else 0) ∈ Set.Icc (0 : ℝ) 1 := fun m => by
    split_ifs with h
    · rw [Bool.and_eq_true, real_lt] at h
      have : (0 : ℝ) < m := h.1
      exact ⟨(Real.exp_pos _).le, Real.exp_le_one_iff.mpr (by rw [neg_div]; exact neg_nonpos.mpr (by positivity))⟩
    · exact ⟨le_rfl, zero_le_one⟩
  have e1 : ((PeakEnvDetector.new : PeakEnvDetector ℝ).setAttack m).setRelease n =
      ⟨if lt zero m && isFinite m then Real.exp (-1 / m) else 0, if lt zero n && isFinite n then Real.exp (-1 / n) else 0, 0⟩ := by
    unfold PeakEnvDetector.setAttack PeakEnvDetector.setRelease
    split_ifs <;> rfl
  have e2 : ((RmsEnvDetector.new : RmsEnvDetector ℝ).setAttack m).setRelease n =
      ⟨if lt zero m && isFinite m then Real.exp (-1 / m) else 0, if lt zero n && isFinite n then Real.exp (-1 / n) else 0, 0⟩ := by
    unfold RmsEnvDetector.setAttack RmsEnvDetector.setRelease
    split_ifs <;> rfl
  rw [e1, e2]
  refine C101_rms_not_below_peak ⟨_, _, _⟩ ⟨_, _, _⟩ rfl rfl (g m) (g n) le_rfl le_rfl (Real.sqrt_nonneg _) b x

/-- The difference is strict in general: gains 1/2, samples 1, 0. -/
example (b : Build) : ∃ y z, Responds b (⟨1 / 2, 1 / 2, 0⟩ : PeakEnvDetector ℝ) (fun n => if n = 0 then 1 else 0) y ∧
    Responds b (⟨1 / 2, 1 / 2, 0⟩ : RmsEnvDetector ℝ) (fun n => if n = 0 then 1 else 0) z ∧ y 0 < z 0 := by
  obtain ⟨y, st, h0, h⟩ := NeverPanics.responds peak_never b ⟨1 / 2, 1 / 2, 0⟩ (fun n => if n = 0 then 1 else 0)
  obtain ⟨z, st', h0', h'⟩ := NeverPanics.responds rms_never b ⟨1 / 2, 1 / 2, 0⟩ (fun n => if n = 0 then 1 else 0)
  refine ⟨y, z, ⟨st, h0, h⟩, ⟨st', h0', h'⟩, ?_⟩
  obtain ⟨-, k2⟩ := Prod.mk.inj (Except.ok.inj (h 0))
  obtain ⟨-, k4⟩ := Prod.mk.inj (Except.ok.inj (h' 0))
  have k6 : y 0 = followed (1 / 2) (1 / 2) 0 |1| := by
    rw [← k2, h0]
    exact C51_peak_rule ⟨1 / 2, 1 / 2, 0⟩ 1
  have k5 : z 0 = Real.sqrt (1 / 2) := by
    rw [← k4, h0']
    refine congrArg Real.sqrt ((rms_envelope ⟨1 / 2, 1 / 2, 0⟩ 1).trans ?_)
    norm_num [followed]
  rw [k6, k5, Real.lt_sqrt] <;> norm_num [followed]

/-! ## Faster attack, slower release -/

theorem followed_gain_mono {a r a' r' e e' i : ℝ} (a0 : 0 ≤ a') (aa : a' ≤ a) (r0 : 0 ≤ r) (rr : r ≤ r') (he : e ≤ e') :
    followed a r e i ≤ followed a' r' e' i := by
  unfold followed
  split_ifs with h h' h'
  · nlinarith
  · push Not at h'; nlinarith
  · push Not at h; linarith
  · push Not at h h'; nlinarith

/-- **C101.** Exact arithmetic: shortening the attack and lengthening the release of a new detector never lowers its reading. -/
theorem C101_length_order {m m' n n' : ℝ} (hm : 0 < m') (hmm : m' ≤ m) (hn : 0 < n) (hnn : n ≤ n') (b : Build) (x : ℕ → ℝ) :
    (∃ y y', Responds b (((PeakEnvDetector.new : PeakEnvDetector ℝ).setAttack m).setRelease n) x y ∧
      Responds b (((PeakEnvDetector.new : PeakEnvDetector ℝ).setAttack m').setRelease n') x y' ∧ ∀ n, y n ≤ y' n) ∧
    (∃ y y', Responds b (((RmsEnvDetector.new : RmsEnvDetector ℝ).setAttack m).setRelease n) x y ∧
      Responds b (((RmsEnvDetector.new : RmsEnvDetector ℝ).setAttack m').setRelease n') x y' ∧ ∀ n, y n ≤ y' n) := by
  have g : ∀ {u v : ℝ}, 0 < u → u ≤ v → Real.exp (-1 / u) ≤ Real.exp (-1 / v) := fun {u v} hu huv => by
    refine Real.exp_le_exp.mpr ?_
    rw [neg_div, neg_div, neg_le_neg_iff]
    exact one_div_le_one_div_of_le hu huv
  have e1 : ∀ {u v : ℝ}, 0 < u → 0 < v → ((PeakEnvDetector.new : PeakEnvDetector ℝ).setAttack u).setRelease v =
      ⟨Real.exp (-1 / u), Real.exp (-1 / v), 0⟩ := fun {u v} hu hv => by
    have hu' : (lt (zero : ℝ) u && isFinite u) = true := by rw [Bool.and_eq_true, real_lt]; exact ⟨hu, rfl⟩
    have hv' : (lt (zero : ℝ) v && isFinite v) = true := by rw [Bool.and_eq_true, real_lt]; exact ⟨hv, rfl⟩
    unfold PeakEnvDetector.setAttack PeakEnvDetector.setRelease
    rw [if_pos hu', if_pos hv']; rfl
  have e2 : ∀ {u v : ℝ}, 0 < u → 0 < v → ((RmsEnvDetector.new : RmsEnvDetector ℝ).setAttack u).setRelease v =
      ⟨Real.exp (-1 / u), Real.exp (-1 / v), 0⟩ := fun {u v} hu hv => by
    have hu' : (lt (zero : ℝ) u && isFinite u) = true := by rw [Bool.and_eq_true, real_lt]; exact ⟨hu, rfl⟩
    have hv' : (lt (zero : ℝ) v && isFinite v) = true := by rw [Bool.and_eq_true, real_lt]; exact ⟨hv, rfl⟩
    unfold RmsEnvDetector.setAttack RmsEnvDetector.setRelease
    rw [if_pos hu', if_pos hv']; rfl
  have key : ∀ e e' i : ℝ, e ≤ e' → followed (Real.exp (-1 / m)) (Real.exp (-1 / n)) e i ≤
      followed (Real.exp (-1 / m')) (Real.exp (-1 / n')) e' i := fun e e' i h =>
    followed_gain_mono (Real.exp_pos _).le (g hm hmm) (Real.exp_pos _).le (g hn hnn) h
  constructor
  · rw [e1 (hm.trans_le hmm) hn, e1 hm (hn.trans_le hnn)]
    refine responds_pair peak_never b
      (fun _ u v => u.attack_gain = Real.exp (-1 / m) ∧ u.release_gain = Real.exp (-1 / n) ∧ v.attack_gain = Real.exp (-1 / m') ∧
        v.release_gain = Real.exp (-1 / n') ∧ u.envelope ≤ v.envelope) (fun _ y y' => y ≤ y') x x ⟨rfl, rfl, rfl, rfl, le_rfl⟩ ?_
    rintro k u v u' v' y y' ⟨h1, h2, h3, h4, h5⟩ hu hv
    obtain ⟨rfl, rfl⟩ := Prod.mk.inj (Except.ok.inj hu)
    obtain ⟨rfl, rfl⟩ := Prod.mk.inj (Except.ok.inj hv)
    have : (u.process (x k)).1.envelope ≤ (v.process (x k)).1.envelope := by
      rw [peak_envelope, peak_envelope, h1, h2, h3, h4]; exact key _ _ _ h5
    exact ⟨⟨h1, h2, h3, h4, this⟩, this⟩
  · rw [e2 (hm.trans_le hmm) hn, e2 hm (hn.trans_le hnn)]
    refine responds_pair rms_never b
      (fun _ u v => u.attack_gain = Real.exp (-1 / m) ∧ u.release_gain = Real.exp (-1 / n) ∧ v.attack_gain = Real.exp (-1 / m') ∧
        v.release_gain = Real.exp (-1 / n') ∧ u.envelope ≤ v.envelope) (fun _ y y' => y ≤ y') x x ⟨rfl, rfl, rfl, rfl, le_rfl⟩ ?_
    rintro k u v u' v' y y' ⟨h1, h2, h3, h4, h5⟩ hu hv
    obtain ⟨rfl, rfl⟩ := Prod.mk.inj (Except.ok.inj hu)
    obtain ⟨rfl, rfl⟩ := Prod.mk.inj (Except.ok.inj hv)
    have : (u.process (x k)).1.envelope ≤ (v.process (x k)).1.envelope := by
      rw [rms_envelope, rms_envelope, h1, h2, h3, h4]; exact key _ _ _ h5
    exact ⟨⟨h1, h2, h3, h4, this⟩, Real.sqrt_le_sqrt this⟩

section IEEE
variable {f : Fmt} {L : Libm f}

/-- The step with two gains, on states in order. -/
theorem smooth_gain_order {g g' i e e' : Fl L} (hg : Fl.In 0 1 g) (hg' : Fl.In 0 1 g') (hi : i.Finite) (he : e.Finite)
    (he' : e'.Finite) (ho : FP.NoOvf f (e.toReal - i.toReal)) (ho' : FP.NoOvf f (e'.toReal - i.toReal))
    (hfin : (i +. g *. (e -. i)).Finite) (hfin' : (i +. g' *. (e' -. i)).Finite) (h : e.toReal ≤ e'.toReal)
    (hc : (e'.toReal ≤ i.toReal ∧ g'.toReal ≤ g.toReal) ∨ (i.toReal ≤ e.toReal ∧ g.toReal ≤ g'.toReal) ∨
      (e.toReal ≤ i.toReal ∧ i.toReal ≤ e'.toReal)) :
    (i +. g *. (e -. i)).toReal ≤ (i +. g' *. (e' -. i)).toReal := by
  rw [smooth_values hg hi he ho hfin, smooth_values hg' hi he' ho' hfin']
  refine rnd_mono (add_le_add le_rfl ?_)
  have hm : rnd f (e.toReal - i.toReal) ≤ rnd f (e'.toReal - i.toReal) := rnd_mono (by linarith)
  rcases hc with ⟨h1, h2⟩ | ⟨h1, h2⟩ | ⟨h1, h2⟩
  · refine rnd_mono ?_
    have k : rnd f (e'.toReal - i.toReal) ≤ 0 := rnd_nonpos (by linarith)
    nlinarith [hg.2.1, hg'.2.1]
  · refine rnd_mono ?_
    have k : 0 ≤ rnd f (e.toReal - i.toReal) := rnd_nonneg (by linarith)
    nlinarith [hg.2.1, hg'.2.1]
  · exact (rnd_nonpos (mul_nonpos_of_nonneg_of_nonpos hg.2.1 (rnd_nonpos (by linarith)))).trans
      (rnd_nonneg (mul_nonneg hg'.2.1 (rnd_nonneg (by linarith))))

/-- One step of either detector on the level `i`: a smaller attack gain and a larger release gain do not lower the envelope. -/
theorem detect_gain_order {B : ℝ} (hB : EvenSig f B) (hl : B < f.lim) {a r a' r' i e e' : Fl L} (ha : Fl.In 0 1 a)
    (hr : Fl.In 0 1 r) (ha' : Fl.In 0 1 a') (hr' : Fl.In 0 1 r') (haa : a'.toReal ≤ a.toReal) (hrr : r.toReal ≤ r'.toReal)
    (hi : Fl.In 0 B i) (he : Fl.In 0 B e) (he' : Fl.In 0 B e') (h : e.toReal ≤ e'.toReal) :
    Fl.In 0 B (i +. (if lt e i then a else r) *. (e -. i)) ∧ Fl.In 0 B (i +. (if lt e' i then a' else r') *. (e' -. i)) ∧
      (i +. (if lt e i then a else r) *. (e -. i)).toReal ≤ (i +. (if lt e' i then a' else r') *. (e' -. i)).toReal := by
  have hsel : ∀ w : Bool, Fl.In 0 1 (if w then a else r) := by intro w; cases w <;> simpa
  have hsel' : ∀ w : Bool, Fl.In 0 1 (if w then a' else r') := by intro w; cases w <;> simpa
  have mem : ∀ {e g : Fl L}, Fl.In 0 1 g → Fl.In 0 B e → Fl.In 0 B (i +. g *. (e -. i)) := fun {e g} hg he =>
    Fl.follow_mem hB hl hg.1 hg.2.1 hg.2.2 hi.1 hi.2.1 hi.2.2 he.1 he.2.1 he.2.2
  refine ⟨mem (hsel _) he, mem (hsel' _) he', ?_⟩
  refine smooth_gain_order (hsel _) (hsel' _) hi.1 he.1 he'.1 (noOvf_sub hB hl he hi) (noOvf_sub hB hl he' hi) (mem (hsel _) he).1
    (mem (hsel' _) he').1 h ?_
  cases h1 : lt e i <;> cases h2 : lt e' i
  · rw [Fl.lt_false_iff he.1 hi.1] at h1
    exact .inr (.inl ⟨h1, hrr⟩)
  · rw [Fl.lt_false_iff he.1 hi.1] at h1
    rw [Fl.lt_iff he'.1 hi.1] at h2
    linarith
  · rw [Fl.lt_iff he.1 hi.1] at h1
    rw [Fl.lt_false_iff he'.1 hi.1] at h2
    exact .inr (.inr ⟨h1.le, h2⟩)
  · rw [Fl.lt_iff he'.1 hi.1] at h2
    exact .inl ⟨h2.le, haa⟩

/-- **C101.** Floating point, peak: the detector with the smaller attack gain (shorter attack) and the larger release gain (longer
release) never reads less, rounding included (`B` as in C50). -/
theorem C101_peak_gain_order {B : ℝ} (hB : EvenSig f B) (hl : B < f.lim) (s t : PeakEnvDetector (Fl L))
    (ha : Fl.In 0 1 s.getAttackGain) (hr : Fl.In 0 1 s.getReleaseGain) (ha' : Fl.In 0 1 t.getAttackGain) (hr' : Fl.In 0 1 t.getReleaseGain)
    (hga : le t.getAttackGain s.getAttackGain = true) (hgr : le s.getReleaseGain t.getReleaseGain = true)
    (hs : Fl.In 0 B s.lastOut) (ht : Fl.In 0 B t.lastOut) (hst : le s.lastOut t.lastOut = true) (b : Build) (x : ℕ → Fl L)
    (hx : ∀ n, Fl.In (-B) B (x n)) :
    ∃ y y', Responds b s x y ∧ Responds b t x y' ∧ ∀ n, le (y n) (y' n) = true := by
  refine responds_pair (fun _ _ _ => ⟨_, _, rfl⟩) b
    (fun _ u v => (u.attack_gain = s.attack_gain ∧ u.release_gain = s.release_gain ∧ v.attack_gain = t.attack_gain ∧
      v.release_gain = t.release_gain) ∧ Fl.In 0 B u.envelope ∧ Fl.In 0 B v.envelope ∧
      u.envelope.toReal ≤ v.envelope.toReal)
    (fun _ y y' => le y y' = true) x x
    ⟨⟨rfl, rfl, rfl, rfl⟩, hs, ht, (Fl.le_iff hs.1 ht.1).mp hst⟩ ?_
  rintro n u v u' v' y y' ⟨⟨h1, h2, h3, h4⟩, hu0, hv0, h5⟩ hu hv
  obtain ⟨rfl, rfl⟩ := Prod.mk.inj (Except.ok.inj hu)
  obtain ⟨rfl, rfl⟩ := Prod.mk.inj (Except.ok.inj hv)
  have hi : Fl.In 0 B (abs (x n)) :=
    ⟨Fl.abs_finite.mpr (hx n).1, by simp, by simpa using abs_le.mpr ⟨(hx n).2.1, (hx n).2.2⟩⟩
  have key := detect_gain_order hB hl ha hr ha' hr' ((Fl.le_iff ha'.1 ha.1).mp hga) ((Fl.le_iff hr.1 hr'.1).mp hgr) hi hu0 hv0 h5
  have eu : (u.process (x n)).2 = abs (x n) +. (if lt u.envelope (abs (x n)) then s.attack_gain else s.release_gain) *.
      (u.envelope -. abs (x n)) := by rw [← h1, ← h2]; rfl
  have ev : (v.process (x n)).2 = abs (x n) +. (if lt v.envelope (abs (x n)) then t.attack_gain else t.release_gain) *.
      (v.envelope -. abs (x n)) := by rw [← h3, ← h4]; rfl
  unfold PeakEnvDetector.getAttackGain PeakEnvDetector.getReleaseGain at key
  rw [← eu, ← ev] at key
  exact ⟨⟨⟨h1, h2, h3, h4⟩, key⟩, (Fl.le_iff key.1.1 key.2.1.1).mpr key.2.2⟩

/-- **C101.** The same for RMS, with samples in `[-1, 1]`. -/
theorem C101_rms_gain_order (s t : RmsEnvDetector (Fl L))
    (ha : Fl.In 0 1 s.getAttackGain) (hr : Fl.In 0 1 s.getReleaseGain) (ha' : Fl.In 0 1 t.getAttackGain) (hr' : Fl.In 0 1 t.getReleaseGain)
    (hga : le t.getAttackGain s.getAttackGain = true) (hgr : le s.getReleaseGain t.getReleaseGain = true)
    (hs : Fl.In 0 1 s.envelope) (ht : Fl.In 0 1 t.envelope) (hst : le s.envelope t.envelope = true) (b : Build) (x : ℕ → Fl L)
    (hx : ∀ n, Fl.In (-1) 1 (x n)) :
    ∃ y y', Responds b s x y ∧ Responds b t x y' ∧ ∀ n, le (y n) (y' n) = true := by
  refine responds_pair (fun _ _ _ => ⟨_, _, rfl⟩) b
    (fun _ u v => (u.attack_gain = s.attack_gain ∧ u.release_gain = s.release_gain ∧ v.attack_gain = t.attack_gain ∧
      v.release_gain = t.release_gain) ∧ Fl.In 0 1 u.envelope ∧ Fl.In 0 1 v.envelope ∧
      u.envelope.toReal ≤ v.envelope.toReal)
    (fun _ y y' => le y y' = true) x x
    ⟨⟨rfl, rfl, rfl, rfl⟩, hs, ht, (Fl.le_iff hs.1 ht.1).mp hst⟩ ?_
  rintro n u v u' v' y y' ⟨⟨h1, h2, h3, h4⟩, hu0, hv0, h5⟩ hu hv
  obtain ⟨rfl, rfl⟩ := Prod.mk.inj (Except.ok.inj hu)
  obtain ⟨rfl, rfl⟩ := Prod.mk.inj (Except.ok.inj hv)
  have hsq : (x n).toReal * (x n).toReal ≤ 1 := by nlinarith [(hx n).2.1, (hx n).2.2]
  have hsq0 : 0 ≤ (x n).toReal * (x n).toReal := mul_self_nonneg _
  have hm := Fl.mul_val (hx n).1 (hx n).1 (FP.noOvf_of_le (isRep_one f) (FP.one_lt_lim f) (by rwa [abs_of_nonneg hsq0]))
  have hi : Fl.In 0 1 (x n *. x n) :=
    ⟨hm.1, by rw [hm.2]; exact rnd_nonneg hsq0, by rw [hm.2]; exact rnd_le_of_le (isRep_one f) hsq⟩
  have key := detect_gain_order (evenSig_one f) (FP.one_lt_lim f) ha hr ha' hr' ((Fl.le_iff ha'.1 ha.1).mp hga)
    ((Fl.le_iff hr.1 hr'.1).mp hgr) hi hu0 hv0 h5
  have eu : (u.process (x n)).1.envelope = x n *. x n +. (if lt u.envelope (x n *. x n) then s.attack_gain else
      s.release_gain) *. (u.envelope -. x n *. x n) := by rw [← h1, ← h2]; rfl
  have ev : (v.process (x n)).1.envelope = x n *. x n +. (if lt v.envelope (x n *. x n) then t.attack_gain else
      t.release_gain) *. (v.envelope -. x n *. x n) := by rw [← h3, ← h4]; rfl
  unfold RmsEnvDetector.getAttackGain RmsEnvDetector.getReleaseGain at key
  rw [← eu, ← ev] at key
  refine ⟨⟨⟨h1, h2, h3, h4⟩, key⟩, ?_⟩
  show le (FloatOps.sqrt (u.process (x n)).1.envelope) (FloatOps.sqrt (v.process (x n)).1.envelope) = true
  rw [Fl.le_iff (sqrt_unit key.1).1 (sqrt_unit key.2.1).1, (Fl.sqrt_val key.1.1 key.1.2.1).2,
    (Fl.sqrt_val key.2.1.1 key.2.1.2.1).2]
  exact rnd_mono (Real.sqrt_le_sqrt key.2.2)

/-- The hypotheses are met by two detectors with different gains: 1 and 0, 0 and 1. -/
example (L : Libm f) (b : Build) (x : ℕ → Fl L) (hx : ∀ n, Fl.In (-1) 1 (x n)) :
    ∃ y y', Responds b (⟨one, zero, zero⟩ : PeakEnvDetector (Fl L)) x y ∧ Responds b (⟨zero, one, zero⟩ : PeakEnvDetector (Fl L)) x y' ∧
      ∀ n, le (y n) (y' n) = true := by
  have h0 : Fl.In 0 1 (zero : Fl L) := zero_in zero_le_one
  have h1 : Fl.In 0 1 (one : Fl L) := ⟨Fl.one_finite, by rw [Fl.one_toReal]; norm_num, by rw [Fl.one_toReal]⟩
  have h01 : le (zero : Fl L) one = true := by rw [Fl.le_iff h0.1 h1.1, Fl.zero_toReal, Fl.one_toReal]; norm_num
  exact C101_peak_gain_order (evenSig_one f) (FP.one_lt_lim f) ⟨one, zero, zero⟩ ⟨zero, one, zero⟩ h1 h0 h0 h1 h01 h01 h0 h0
    ((Fl.le_iff h0.1 h0.1).mpr le_rfl) b x hx

/-- **C101.** In floating point the RMS detector can read less than the peak detector: for the smallest positive number two new detectors
read 0 and that number. -/
theorem C101_rms_below_peak_ieee (L : Libm f) : ∃ x : Fl L, x.Finite ∧
    ((RmsEnvDetector.new : RmsEnvDetector (Fl L)).process x).2.toReal < ((PeakEnvDetector.new : PeakEnvDetector (Fl L)).process x).2.toReal := by
  obtain ⟨x, h1, h2, h3⟩ := (C53_rms_extremes L).1
  refine ⟨x, h1, ?_⟩
  obtain ⟨st, h0, h⟩ := C53_peak_magnitude ⟨true⟩ (fun _ => x) (fun _ => h1)
  have e : ((PeakEnvDetector.new : PeakEnvDetector (Fl L)).process x).2 = abs x := by
    rw [← h0]; exact (Prod.mk.inj (Except.ok.inj (h 0))).2
  rw [h3, e, Fl.abs_toReal]
  exact abs_pos.mpr h2.ne'

end IEEE

end Rasp
