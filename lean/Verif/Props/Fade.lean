import Verif.Lemmas.Fade
import Verif.Props.LowCutoff
import Verif.Model.Analysis

/-!
# C81: the response to silence does not reach zero

In exact arithmetic these types decay to zero. In floats they stop at a constant, mostly a denormal number, unless the gain
is at most one half.
-/

namespace Rasp
open FloatOps Fl
variable {f : Fmt} {L : Libm f}

/-- Fed with silence, the magnitude of the output never grows and is `c` from some point on. -/
def FadesTo {σ : Type} [Processor σ (Fl L)] (s : σ) (c : ℝ) : Prop :=
  ∀ (b : Build) (x : ℕ → Fl L), (∀ n, (x n).Finite ∧ (x n).toReal = 0) →
    ∃ y, Responds b s x y ∧ (∀ n, (y n).Finite) ∧ (∀ n, |(y (n + 1)).toReal| ≤ |(y n).toReal|) ∧
      ∃ N, ∀ n, N ≤ n → |(y n).toReal| = c

/-- Types whose silent step multiplies a level by a gain and rounds. -/
theorem fades_of {σ : Type} [Processor σ (Fl L)] {inv : σ → Prop} {lv : σ → Fl L} {g : ℝ} {φ : ℝ → ℝ}
    (hg : IsRep f g) (g0 : 0 ≤ g) (g1 : g < 1) (hφ : ∀ u v, 0 ≤ u → u ≤ v → φ u ≤ φ v)
    (hstep : ∀ b s (x : Fl L), inv s → x.Finite → x.toReal = 0 → ∃ s' y, Processor.process b s x = .ok (s', y) ∧ inv s' ∧
      |(lv s').toReal| = rnd f (g * |(lv s).toReal|) ∧ y.Finite ∧ |y.toReal| = φ |(lv s').toReal|) {s : σ} (hs : inv s) :
    ∃ c, FadesTo s (φ c) ∧ 0 ≤ c ∧ c ≤ f.tiny / (2 * (1 - g)) ∧ (c = 0 ↔ g ≤ 1 / 2 ∨ (lv s).toReal = 0) ∧
      (c = 0 ∨ f.tiny ≤ c) := by
  -- the levels do not depend on the build or the signs of the zeros
  obtain ⟨v, v0, hv⟩ : ∃ v : ℕ → ℝ, v 0 = |(lv s).toReal| ∧ ∀ n, v (n + 1) = rnd f (g * v n) :=
    ⟨fun n => Nat.rec |(lv s).toReal| (fun _ u => rnd f (g * u)) n, rfl, fun _ => rfl⟩
  obtain ⟨rep, nn, anti, c, ⟨N, hN⟩, c0, c1, c2⟩ := fade hg g0 g1 (v := v) (by rw [v0]; exact (isRep_toReal (lv s)).abs)
    (by rw [v0]; exact abs_nonneg _) hv
  refine ⟨c, ?_, c0, c1, by rw [c2, v0, abs_eq_zero], ?_⟩
  swap
  · rw [← hN N le_rfl]
    rcases (nn N).eq_or_lt with h | h
    · exact Or.inl h.symm
    · exact Or.inr ((rep N).tiny_le h)
  intro b x hx
  have key : ∀ n (t : σ), inv t → ∃ t' y, Processor.process b t (x n) = .ok (t', y) ∧ inv t' ∧
      |(lv t').toReal| = rnd f (g * |(lv t).toReal|) ∧ y.Finite ∧ |y.toReal| = φ |(lv t').toReal| :=
    fun n t ht => hstep b t (x n) ht (hx n).1 (hx n).2
  have : Nonempty (Fl L) := ⟨zero⟩
  have : Nonempty σ := ⟨s⟩
  choose! nx out h1 h2 h3 h4 h5 using key
  obtain ⟨st, st0, hst⟩ : ∃ st : ℕ → σ, st 0 = s ∧ ∀ n, st (n + 1) = nx n (st n) :=
    ⟨fun n => Nat.rec s (fun n t => nx n t) n, rfl, fun _ => rfl⟩
  have hinv : ∀ n, inv (st n) := fun n => by
    induction n with
    | zero => rw [st0]; exact hs
    | succ n ih => rw [hst]; exact h2 n _ ih
  have hlv : ∀ n, |(lv (st n)).toReal| = v n := fun n => by
    induction n with
    | zero => rw [st0, v0]
    | succ n ih => rw [hv, ← ih, hst]; exact h3 n _ (hinv n)
  have hy : ∀ n, |(out n (st n)).toReal| = φ (v (n + 1)) := fun n => by
    rw [h5 n _ (hinv n), ← hlv, hst]
  refine ⟨fun n => out n (st n), ⟨st, st0, fun n => by rw [hst]; exact h1 n _ (hinv n)⟩, fun n => h4 n _ (hinv n), fun n => ?_, N, fun n hn => ?_⟩
  · rw [hy, hy]; exact hφ _ _ (nn _) (anti _)
  · rw [hy, hN _ (by omega)]

theorem drop_last {A B C D E : ℝ → Prop} (h : ∃ c, A c ∧ B c ∧ C c ∧ D c ∧ E c) : ∃ c, A c ∧ B c ∧ C c ∧ D c :=
  h.imp fun _ h => ⟨h.1, h.2.1, h.2.2.1, h.2.2.2.1⟩

theorem Fl.smooth_silent {i α z : Fl L} (hi : i.Finite) (h0 : i.toReal = 0) (hα : α.Finite) (h1 : |α.toReal| < 1)
    (hz : z.Finite) : (i +. α *. (z -. i)).Finite ∧ (i +. α *. (z -. i)).toReal = rnd f (α.toReal * z.toReal) := by
  obtain ⟨df, dv⟩ := sub_zero_val hz hi h0
  obtain ⟨mf, mv⟩ := mul_val hα df (noOvf_of_abs_le (y := z) (by
    rw [dv, abs_mul]; exact mul_le_of_le_one_left (abs_nonneg _) h1.le))
  have h := add_val hi mf (by rw [h0, zero_add]; exact noOvf_toReal _)
  rw [h0, zero_add, rnd_of_isRep (isRep_toReal _), mv, dv] at h
  exact h

theorem abs_rnd_mul {f : Fmt} (a b : ℝ) : |rnd f (a * b)| = rnd f (|a| * |b|) := by
  rw [abs_rnd, abs_mul]

theorem Fmt.tiny_le_one (f : Fmt) : f.tiny ≤ 1 := by
  have := f.hemin
  exact zpow_le_one_of_nonpos₀ (by norm_num) (by have := f.hp; omega)

/-- **C81**: OnePole. -/
theorem C81_onePole (s : OnePole (Fl L)) (hb : s.b0.Finite) (ha : s.a1.Finite) (h1 : |s.a1.toReal| < 1)
    (hz : s.lastOut.Finite) : ∃ c, FadesTo s c ∧ 0 ≤ c ∧ c ≤ f.tiny / (2 * (1 - |s.a1.toReal|)) ∧
      (c = 0 ↔ |s.a1.toReal| ≤ 1 / 2 ∨ s.lastOut.toReal = 0) := by
  refine drop_last (fades_of (σ := OnePole (Fl L)) (inv := fun t => t.b0 = s.b0 ∧ t.a1 = s.a1 ∧ t.y_z1.Finite) (lv := fun t => t.y_z1) (φ := id)
    (isRep_toReal s.a1).abs (abs_nonneg _) h1 (fun _ _ _ h => h) ?_ ⟨rfl, rfl, hz⟩)
  rintro b t x ⟨e1, e2, e3⟩ hx hx0
  obtain ⟨pf, pv⟩ := mul_zero_val (e1 ▸ hb) hx hx0
  obtain ⟨mf, mv⟩ := mul_val (x := t.a1) (e2 ▸ ha) e3 (noOvf_of_abs_le (y := t.y_z1) (by
    rw [e2, abs_mul]; exact mul_le_of_le_one_left (abs_nonneg _) h1.le))
  have h := sub_val pf mf (by rw [pv, zero_sub, ← neg_toReal]; exact noOvf_toReal _)
  rw [pv, zero_sub, rnd_of_isRep (isRep_toReal _).neg, mv, e2] at h
  refine ⟨_, _, rfl, ⟨e1, e2, ?_⟩, ?_, ?_, rfl⟩
  · show (t.b0 *. x -. t.a1 *. t.y_z1).Finite
    rw [e2]; exact h.1
  · show |(t.b0 *. x -. t.a1 *. t.y_z1).toReal| = _
    rw [e2, h.2, abs_neg, abs_rnd_mul]
  · show (t.b0 *. x -. t.a1 *. t.y_z1).Finite
    rw [e2]; exact h.1

/-- **C81**: LeakyIntegrator. -/
theorem C81_leaky (s : LeakyIntegrator (Fl L)) (ha : s.getAlpha.Finite) (h1 : |s.getAlpha.toReal| < 1)
    (hz : s.lastOut.Finite) : ∃ c, FadesTo s c ∧ 0 ≤ c ∧ c ≤ f.tiny / (2 * (1 - |s.getAlpha.toReal|)) ∧
      (c = 0 ↔ |s.getAlpha.toReal| ≤ 1 / 2 ∨ s.lastOut.toReal = 0) := by
  refine drop_last (fades_of (σ := LeakyIntegrator (Fl L)) (inv := fun t => t.alpha = s.alpha ∧ t.y_z1.Finite) (lv := fun t => t.y_z1) (φ := id)
    (isRep_toReal s.alpha).abs (abs_nonneg _) h1 (fun _ _ _ h => h) ?_ ⟨rfl, hz⟩)
  rintro b t x ⟨e2, e3⟩ hx hx0
  have h := smooth_silent hx hx0 ha h1 e3
  refine ⟨_, _, rfl, ⟨e2, ?_⟩, ?_, ?_, rfl⟩
  · show (x +. t.alpha *. (t.y_z1 -. x)).Finite
    rw [e2]; exact h.1
  · show |(x +. t.alpha *. (t.y_z1 -. x)).toReal| = _
    rw [e2]
    exact (congrArg (fun t : ℝ => |t|) h.2).trans (abs_rnd_mul _ _)
  · show (x +. t.alpha *. (t.y_z1 -. x)).Finite
    rw [e2]; exact h.1

/-- **C81**: PeakEnvDetector. -/
theorem C81_peak (s : PeakEnvDetector (Fl L)) (ha : s.getReleaseGain.Finite) (h0 : 0 ≤ s.getReleaseGain.toReal)
    (h1 : s.getReleaseGain.toReal < 1) (hz : s.lastOut.Finite) (hz0 : 0 ≤ s.lastOut.toReal) :
    ∃ c, FadesTo s c ∧ 0 ≤ c ∧ c ≤ f.tiny / (2 * (1 - s.getReleaseGain.toReal)) ∧
      (c = 0 ↔ s.getReleaseGain.toReal ≤ 1 / 2 ∨ s.lastOut.toReal = 0) := by
  refine drop_last (fades_of (σ := PeakEnvDetector (Fl L)) (inv := fun t => t.release_gain = s.release_gain ∧ t.envelope.Finite ∧ 0 ≤ t.envelope.toReal)
    (lv := fun t => t.envelope) (φ := id)
    (isRep_toReal s.release_gain) h0 h1 (fun _ _ _ h => h) ?_ ⟨rfl, hz, hz0⟩)
  rintro b t x ⟨e2, e3, e4⟩ hx hx0
  have hi : (FloatOps.abs x).Finite := abs_finite.mpr hx
  have hi0 : (FloatOps.abs x).toReal = 0 := by rw [abs_toReal, hx0, abs_zero]
  have hlt : lt t.envelope (FloatOps.abs x) = false := by
    rw [← Bool.not_eq_true, lt_iff e3 hi, hi0]; linarith
  have h := smooth_silent hi hi0 ha (by rw [abs_of_nonneg h0]; exact h1) e3
  have hpr : t.process x = ({ t with envelope := FloatOps.abs x +. s.release_gain *. (t.envelope -. FloatOps.abs x) },
      FloatOps.abs x +. s.release_gain *. (t.envelope -. FloatOps.abs x)) := by
    simp only [PeakEnvDetector.process]
    rw [if_neg (by rw [Bool.not_eq_true]; exact hlt), e2]
  have hv : (FloatOps.abs x +. s.release_gain *. (t.envelope -. FloatOps.abs x)).toReal =
      rnd f (s.release_gain.toReal * t.envelope.toReal) := h.2
  have hnn : 0 ≤ (FloatOps.abs x +. s.release_gain *. (t.envelope -. FloatOps.abs x)).toReal := by
    rw [hv]; exact rnd_nonneg (mul_nonneg h0 e4)
  refine ⟨_, _, congrArg Except.ok hpr, ⟨e2, h.1, hnn⟩, ?_, h.1, rfl⟩
  show |(FloatOps.abs x +. s.release_gain *. (t.envelope -. FloatOps.abs x)).toReal| = _
  rw [abs_of_nonneg hnn, hv, abs_of_nonneg e4]

/-- **C81**: RmsEnvDetector. The square root makes the remainder larger. -/
theorem C81_rms (s : RmsEnvDetector (Fl L)) (ha : s.getReleaseGain.Finite) (h0 : 0 ≤ s.getReleaseGain.toReal)
    (h1 : s.getReleaseGain.toReal < 1) (hz : s.envelope.Finite) (hz0 : 0 ≤ s.envelope.toReal) :
    ∃ c, FadesTo s c ∧ 0 ≤ c ∧ c ≤ rnd f (Real.sqrt (f.tiny / (2 * (1 - s.getReleaseGain.toReal)))) ∧
      (c = 0 ↔ s.getReleaseGain.toReal ≤ 1 / 2 ∨ s.envelope.toReal = 0) := by
  suffices h : ∃ c, FadesTo s (rnd f (Real.sqrt c)) ∧ 0 ≤ c ∧ c ≤ f.tiny / (2 * (1 - s.getReleaseGain.toReal)) ∧
      (c = 0 ↔ s.getReleaseGain.toReal ≤ 1 / 2 ∨ s.envelope.toReal = 0) ∧ (c = 0 ∨ f.tiny ≤ c) by
    obtain ⟨c, c1, c2, c3, c4, c5⟩ := h
    refine ⟨_, c1, rnd_nonneg (Real.sqrt_nonneg _), rnd_mono (Real.sqrt_le_sqrt c3), ?_⟩
    rw [← c4]
    rcases c5 with h | h
    · simp [h]
    · have ht := f.tiny_pos
      refine ⟨fun h' => ?_, fun h' => by linarith⟩
      have : f.tiny ≤ rnd f (Real.sqrt c) := by
        apply le_rnd_of_le (isRep_two_zpow le_rfl)
        show f.tiny ≤ _
        rw [Real.le_sqrt' ht]
        have := f.tiny_le_one
        nlinarith
      linarith
  refine fades_of (σ := RmsEnvDetector (Fl L)) (inv := fun t => t.release_gain = s.release_gain ∧ t.envelope.Finite ∧ 0 ≤ t.envelope.toReal)
    (lv := fun t => t.envelope) (φ := fun v => rnd f (Real.sqrt v))
    (isRep_toReal s.release_gain) h0 h1 (fun _ _ _ h => rnd_mono (Real.sqrt_le_sqrt h)) ?_ ⟨rfl, hz, hz0⟩
  rintro b t x ⟨e2, e3, e4⟩ hx hx0
  obtain ⟨hi, hi0⟩ := mul_zero_val hx hx hx0
  have hlt : lt t.envelope (x *. x) = false := by
    rw [← Bool.not_eq_true, lt_iff e3 hi, hi0]; linarith
  have h := smooth_silent hi hi0 ha (by rw [abs_of_nonneg h0]; exact h1) e3
  have hpr : t.process x = ({ t with envelope := x *. x +. s.release_gain *. (t.envelope -. x *. x) },
      FloatOps.sqrt (x *. x +. s.release_gain *. (t.envelope -. x *. x))) := by
    simp only [RmsEnvDetector.process]
    rw [if_neg (by rw [Bool.not_eq_true]; exact hlt), e2]
  have hv : (x *. x +. s.release_gain *. (t.envelope -. x *. x)).toReal =
      rnd f (s.release_gain.toReal * t.envelope.toReal) := h.2
  have hnn : 0 ≤ (x *. x +. s.release_gain *. (t.envelope -. x *. x)).toReal := by
    rw [hv]; exact rnd_nonneg (mul_nonneg h0 e4)
  have hs := FP.sqrt_fin (f := f) h.1 hnn
  refine ⟨_, _, congrArg Except.ok hpr, ⟨e2, h.1, hnn⟩, ?_, hs.1, ?_⟩
  · show |(x *. x +. s.release_gain *. (t.envelope -. x *. x)).toReal| = _
    rw [abs_of_nonneg hnn, hv, abs_of_nonneg e4]
  · show |(FloatOps.sqrt (x *. x +. s.release_gain *. (t.envelope -. x *. x))).toReal| = rnd f (Real.sqrt |(x *. x +. s.release_gain *. (t.envelope -. x *. x)).toReal|)
    rw [abs_of_nonneg hnn]
    refine (congrArg (fun t : ℝ => |t|) hs.2).trans (abs_of_nonneg (rnd_nonneg (Real.sqrt_nonneg _)))

theorem residue_le {g : ℝ} (hg : IsRep f g) (h1 : g < 1) :
    f.tiny / (2 * (1 - g)) ≤ 2 ^ (f.emin + f.p - 1) := by
  have h := hg.le_pred_one h1
  rw [div_le_iff₀ (by linarith), zpow_sub₀ (by norm_num), zpow_add₀ (by norm_num)]
  have hp : (2 : ℝ) ^ (f.p : ℤ) * 2 ^ (-(f.p : ℤ)) = 1 := by rw [← zpow_add₀ (by norm_num)]; simp
  have ht := f.tiny_pos
  have h2 : 1 ≤ (2 : ℝ) ^ (f.p : ℤ) * (1 - g) := by
    have := two_zpow_pos (f.p : ℤ)
    nlinarith
  unfold Fmt.tiny at *
  calc (2 : ℝ) ^ f.emin = 2 ^ f.emin * 1 := by ring
    _ ≤ 2 ^ f.emin * ((2 : ℝ) ^ (f.p : ℤ) * (1 - g)) := mul_le_mul_of_nonneg_left h2 ht.le
    _ = _ := by ring

/-- **C81**: the residue is at most the smallest normal number. -/
theorem C81_denormal :
    (∀ s : OnePole (Fl L), s.b0.Finite → s.a1.Finite → |s.a1.toReal| < 1 → s.lastOut.Finite →
      ∃ c, FadesTo s c ∧ c ≤ 2 ^ (f.emin + f.p - 1)) ∧
    (∀ s : LeakyIntegrator (Fl L), s.getAlpha.Finite → |s.getAlpha.toReal| < 1 → s.lastOut.Finite →
      ∃ c, FadesTo s c ∧ c ≤ 2 ^ (f.emin + f.p - 1)) ∧
    (∀ s : PeakEnvDetector (Fl L), s.getReleaseGain.Finite → 0 ≤ s.getReleaseGain.toReal → s.getReleaseGain.toReal < 1 →
      s.lastOut.Finite → 0 ≤ s.lastOut.toReal → ∃ c, FadesTo s c ∧ c ≤ 2 ^ (f.emin + f.p - 1)) := by
  refine ⟨fun s h1 h2 h3 h4 => ?_, fun s h1 h2 h3 => ?_, fun s h1 h2 h3 h4 h5 => ?_⟩
  · obtain ⟨c, hc, -, hle, -⟩ := C81_onePole s h1 h2 h3 h4
    exact ⟨c, hc, hle.trans (residue_le (isRep_toReal s.a1).abs h3)⟩
  · obtain ⟨c, hc, -, hle, -⟩ := C81_leaky s h1 h2 h3
    exact ⟨c, hc, hle.trans (residue_le (isRep_toReal s.getAlpha).abs h2)⟩
  · obtain ⟨c, hc, -, hle, -⟩ := C81_peak s h1 h2 h3 h4 h5
    exact ⟨c, hc, hle.trans (residue_le (isRep_toReal s.getReleaseGain) h3)⟩

/-- The hypotheses are met: an integrator with gain 3/4 and one sample of 1 never gets back to zero. -/
example (L : Libm binary32) : ∃ s : LeakyIntegrator (Fl L), s.getAlpha.Finite ∧ s.getAlpha.toReal = 3 / 4 ∧ s.lastOut.Finite ∧
    s.lastOut.toReal = 1 ∧ ∃ c, FadesTo s c ∧ 0 < c ∧ c ≤ 2 * binary32.tiny := by
  obtain ⟨a, ha⟩ := exists_of_isRep L (v := 3 / 4) ⟨3, -2, by norm_num [binary32], by norm_num [binary32], by norm_num⟩
    (by norm_num [Fmt.lim, binary32, abs_div])
  refine ⟨{ y_z1 := one, alpha := a }, ha.1, ha.2, one_finite, one_toReal, ?_⟩
  obtain ⟨c, h1, h2, h3, h4⟩ := C81_leaky (L := L) { y_z1 := one, alpha := a } ha.1
    (by show |a.toReal| < 1; rw [ha.2, abs_of_pos] <;> norm_num) one_finite
  refine ⟨c, h1, lt_of_le_of_ne h2 (Ne.symm ?_), ?_⟩
  · rw [Ne, h4]
    show ¬ (|a.toReal| ≤ 1 / 2 ∨ (one : Fl L).toReal = 0)
    rw [ha.2, one_toReal, abs_of_pos (by norm_num)]
    norm_num
  · refine h3.trans (le_of_eq ?_)
    show _ / (2 * (1 - |a.toReal|)) = _
    rw [ha.2, abs_of_pos (by norm_num)]
    norm_num
    ring

end Rasp
