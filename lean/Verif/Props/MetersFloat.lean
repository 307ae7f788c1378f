import Verif.Props.AudioFloat
import Verif.Props.ChainFloat
import Verif.Props.Meters
import Verif.Spec.MetersFloat
import Verif.Spec.Phase

/-!
# C153: what the meters read on sinusoids and periodic signals in floating point
-/

namespace Rasp
open FloatOps Fl Filter Topology
variable {f : Fmt} {L : Libm f} {b : Build}

/-! ## The mean square -/

/-- A smoother fed with numbers that are from sample `N` on within `δ` of the squares of a sinusoid. -/
theorem smooth_near_sine {g : ℝ} (hg : g ∈ Set.Ico (0 : ℝ) 1) {A w φ δ : ℝ} {e i : ℕ → ℝ} (he : ∀ n, e (n + 1) = i n + g * (e n - i n)) {N : ℕ}
    (hi : ∀ n, N ≤ n → |i n - (A * Real.cos (w * n + φ)) ^ 2| ≤ δ) (k : ℕ) :
    |e (N + k) - A ^ 2 / 2| ≤ A ^ 2 / 2 * ripple g w + δ + g ^ k * (|e N| + A ^ 2) := by
  obtain ⟨ψ, hψ⟩ : ∃ ψ, ψ = 2 * φ := ⟨_, rfl⟩
  have g1 : 0 < 1 - g := by linarith [hg.2]
  have hA : 0 ≤ A ^ 2 / 2 := by positivity
  obtain ⟨Q, hQ⟩ : ∃ Q : ℕ → ℝ, ∀ n, Q n = A ^ 2 / 2 * (1 + smoothCos g (2 * w) ψ (n - 1)) := ⟨_, fun _ => rfl⟩
  have hstep : ∀ n, Q (n + 1) = (A * Real.cos (w * n + φ)) ^ 2 + g * (Q n - (A * Real.cos (w * n + φ)) ^ 2) := by
    intro n
    have hs := smoothCos_step hg (2 * w) ψ (n - 1)
    rw [sub_add_cancel] at hs
    have hcos : (A * Real.cos (w * n + φ)) ^ 2 = A ^ 2 / 2 * (1 + Real.cos (2 * w * n + ψ)) := by
      rw [hψ, show 2 * w * n + 2 * φ = 2 * (w * n + φ) by ring, Real.cos_two_mul, mul_pow]; ring
    rw [hQ, hQ, hcos]
    push_cast
    rw [add_sub_cancel_right, hs]
    ring
  have hb : ∀ n, |Q n - A ^ 2 / 2| ≤ A ^ 2 / 2 * ripple g w := by
    intro n
    rw [hQ, show A ^ 2 / 2 * (1 + smoothCos g (2 * w) ψ (n - 1)) - A ^ 2 / 2 = A ^ 2 / 2 * smoothCos g (2 * w) ψ (n - 1) by ring, abs_mul, abs_of_nonneg hA]
    exact mul_le_mul_of_nonneg_left (abs_smoothCos_le hg _ _ _) hA
  have hr : ripple g w ≤ 1 := by
    have hD := smooth_denom_pos (θ := 2 * w) hg
    unfold ripple
    rw [div_le_one (Real.sqrt_pos.mpr hD)]
    refine Real.le_sqrt_of_sq_le ?_
    nlinarith [Real.cos_le_one (2 * w), hg.1, mul_nonneg hg.1 (sub_nonneg.mpr (Real.cos_le_one (2 * w)))]
  have hd : |e (N + k) - Q (N + k)| ≤ δ + g ^ k * |e N - Q N| := by
    have hδ : 0 ≤ δ := (abs_nonneg _).trans (hi N le_rfl)
    induction k with
    | zero => simpa using hδ
    | succ k ih =>
      rw [← add_assoc, he, hstep]
      have h1 := hi (N + k) (by omega)
      have h2 : i (N + k) + g * (e (N + k) - i (N + k)) - ((A * Real.cos (w * (N + k : ℕ) + φ)) ^ 2 + g * (Q (N + k) - (A * Real.cos (w * (N + k : ℕ) + φ)) ^ 2)) =
          (1 - g) * (i (N + k) - (A * Real.cos (w * (N + k : ℕ) + φ)) ^ 2) + g * (e (N + k) - Q (N + k)) := by ring
      rw [h2]
      refine (abs_add_le _ _).trans ?_
      rw [abs_mul, abs_mul, abs_of_pos g1, abs_of_nonneg hg.1, pow_succ g]
      nlinarith [mul_le_mul_of_nonneg_left h1 g1.le, mul_le_mul_of_nonneg_left ih hg.1]
  have h0 : |e N - Q N| ≤ |e N| + A ^ 2 := by
    have h1 := abs_le.mp (hb N)
    have h3 := mul_le_mul_of_nonneg_left hr hA
    have h2 : |Q N| ≤ A ^ 2 := abs_le.mpr ⟨by linarith, by linarith⟩
    exact (abs_sub _ _).trans (by linarith)
  have h1 := mul_le_mul_of_nonneg_left h0 (pow_nonneg hg.1 k)
  have h2 := abs_sub_le (e (N + k)) (Q (N + k)) (A ^ 2 / 2)
  linarith [hb (N + k)]

/-- The numbers that an integrator puts out, one from the other. -/
theorem leaky_follows {s : LeakyIntegrator ℝ} {x y : ℕ → ℝ} (h : Responds b s x y) :
    ∃ e : ℕ → ℝ, e 0 = s.lastOut ∧ (∀ n, e (n + 1) = x n + s.getAlpha * (e n - x n)) ∧ ∀ n, y n = e (n + 1) := by
  obtain ⟨st, h0, h⟩ := h
  have inv : ∀ n, (st n).alpha = s.alpha := by
    intro n
    induction n with
    | zero => rw [h0]
    | succ n ih =>
      obtain ⟨k1, -⟩ := Prod.mk.inj (Except.ok.inj (h n))
      rw [← k1]; exact ih
  refine ⟨fun n => (st n).y_z1, congrArg LeakyIntegrator.y_z1 h0, fun n => ?_, fun n => ?_⟩
  · obtain ⟨k1, -⟩ := Prod.mk.inj (Except.ok.inj (h n))
    beta_reduce
    rw [← k1]
    show x n + (st n).alpha * ((st n).y_z1 - x n) = _
    rw [inv]; rfl
  · obtain ⟨k1, k2⟩ := Prod.mk.inj (Except.ok.inj (h n))
    show y n = (st (n + 1)).y_z1
    rw [← k1, ← k2]

theorem sqrt_finite_nonneg {v : Fl L} (hv : v.Finite) (h : (FloatOps.sqrt v).Finite) : 0 ≤ v.toReal := by
  obtain ⟨s, a, ha, rfl⟩ := FP.finite_cases hv
  by_contra hn
  have h' : (FP.sqrt (FP.fin s a ha)).Finite := h
  have h0 : a ≠ 0 := by rintro rfl; exact hn (by cases s <;> simp [Fl.toReal, FP.toReal])
  have hs : s = true := by
    cases s
    · exact absurd ha.1 (by simpa [Fl.toReal, FP.toReal] using hn)
    · rfl
  subst hs
  simp [FP.sqrt, h0] at h'

/-- An RMS detector with equal gains, on samples that are from sample `N` on within `δ` of a sinusoid of amplitude `A`. -/
theorem rms_near_sine {d : RmsEnvDetector (Fl L)} {g : ℝ} (hgain : d.release_gain = d.attack_gain) (hgf : d.attack_gain.Finite)
    (hgv : d.attack_gain.toReal = g) (hg : g ∈ Set.Ico (0 : ℝ) 1) {X : ℝ} (hm : d.envelope.Within (X ^ 2)) (hm0 : 0 ≤ d.envelope.toReal)
    (hov : 4 * (X ^ 2 + f.tiny) ≤ 2 ^ f.emax) {A w φ δ : ℝ} (hA : A ≠ 0) (hAX : |A| ≤ X) {x y : ℕ → Fl L} (hx : ∀ n, (x n).Within X)
    {N : ℕ} (hs : ∀ n, N ≤ n → |(x n).toReal - A * Real.cos (w * n + φ)| ≤ δ) (hy : Responds b d x y) :
    ∃ C, (N = 0 → C = g * (d.envelope.toReal + A ^ 2)) ∧ ∀ n, (y n).Finite ∧ (N ≤ n → |(y n).toReal - |A| / √2| ≤
      (1 + f.u) * (√2 / |A|) * (A ^ 2 / 2 * ripple g w + g ^ (n - N) * C + 2 * X * δ + 9 * (f.u * X ^ 2 + f.tiny) / (1 - g)) + f.u * |A| + f.tiny) := by
  have hX : 0 ≤ X := (abs_nonneg _).trans hAX
  have hu := f.u_pos; have hu4 := f.u_le; have ht := f.tiny_pos
  have hX2 : 0 ≤ X ^ 2 := sq_nonneg X
  have huX : 0 ≤ f.u * X ^ 2 := by positivity
  have hg1 : 0 < 1 - g := by linarith [hg.2]
  have hδ : 0 ≤ δ := (abs_nonneg _).trans (hs N le_rfl)
  have gain : d.attack_gain.Gain g := ⟨hgf, by rw [hgv]; exact hg.1, hgv.le⟩
  have fin : ∀ n, (y n).Finite := by
    obtain ⟨-, ht2, ht3⟩ := C74_rms hX hg.2 gain (hgain ▸ gain) hm hm0 hov
    obtain ⟨z, hz⟩ := ht2 b (fun n => (x n).toReal)
    exact fun n => (ht3 b x y z hx hy hz n).1
  obtain ⟨D, hD⟩ : ∃ D, D = f.u * X ^ 2 + f.tiny := ⟨_, rfl⟩
  have huX4 : f.u * X ^ 2 ≤ 1 / 4 * X ^ 2 := mul_le_mul_of_nonneg_right hu4 hX2
  obtain ⟨i, hi⟩ : ∃ i : LeakyIntegrator (Fl L), i = ⟨d.attack_gain, d.envelope⟩ := ⟨_, rfl⟩
  obtain ⟨v, hv, hyv⟩ := ((C101_equal_gains b i x y).2 d (by rw [hi]; rfl) (by rw [hi]; exact hgain) (by rw [hi]; rfl)).mp hy
  have hsq : ∀ n, (x n *. x n).Within (X ^ 2 + D) ∧ |(x n *. x n).toReal - (x n).toReal ^ 2| ≤ D := by
    intro n
    have h3 : |(x n).toReal * (x n).toReal| ≤ X ^ 2 := by
      rw [abs_mul, ← pow_two]; exact pow_le_pow_left₀ (abs_nonneg _) (hx n).2 2
    obtain ⟨v1, v2⟩ := Fl.mul_val (hx n).1 (hx n).1 (Fl.noOvf_of_le_emax (h3.trans (by linarith)))
    have r := abs_rnd_sub_le_u f ((x n).toReal * (x n).toReal)
    have r' : |rnd f ((x n).toReal * (x n).toReal) - (x n).toReal ^ 2| ≤ D := by
      rw [pow_two, hD]
      have := mul_le_mul_of_nonneg_left h3 hu.le
      linarith
    rw [Fl.Within, v2]
    refine ⟨⟨v1, ?_⟩, r'⟩
    have := abs_sub_abs_le_abs_sub (rnd f ((x n).toReal * (x n).toReal)) ((x n).toReal ^ 2)
    rw [abs_of_nonneg (sq_nonneg (x n).toReal)] at this
    have h4 : (x n).toReal ^ 2 ≤ X ^ 2 := by rw [← sq_abs]; exact pow_le_pow_left₀ (abs_nonneg _) (hx n).2 2
    linarith
  have hi1 : i.alpha = d.attack_gain := by rw [hi]
  have hD0 : 0 ≤ D := by rw [hD]; positivity
  obtain ⟨-, k2, k3⟩ := C74_leaky (s := i) (X := X ^ 2 + D) (hi1 ▸ hgf) (by rw [hi1, hgv]; exact hg.1) (by rw [hi1, hgv]; exact hg.2)
    (by rw [hi]; exact ⟨hm.1, hm.2.trans (by linarith)⟩) (by rw [hD]; linarith)
  obtain ⟨z, hz⟩ := k2 b (fun n => (x n *. x n).toReal)
  have k3 := k3 b _ v z (fun n => (hsq n).1) hv hz
  rw [hi1, hgv] at k3
  obtain ⟨e, e0, e1, e2⟩ := leaky_follows hz
  have e0' : e 0 = d.envelope.toReal := by rw [e0, hi]; rfl
  have ea : i.exact.getAlpha = g := by rw [hi]; exact hgv
  rw [ea] at e1
  have key := smooth_near_sine hg (δ := D + 2 * X * δ) (A := A) (w := w) (φ := φ) e1 (N := N) (fun n hn => by
    have h1 := (hsq n).2
    have h2 := hs n hn
    have h3 : |A * Real.cos (w * n + φ)| ≤ X := by
      rw [abs_mul]; exact (mul_le_of_le_one_right (abs_nonneg _) (Real.abs_cos_le_one _)).trans hAX
    have h4 : |(x n).toReal ^ 2 - (A * Real.cos (w * n + φ)) ^ 2| ≤ 2 * X * δ := by
      rw [sq_sub_sq, abs_mul, mul_comm, mul_comm (2 * X)]
      refine mul_le_mul h2 ((abs_add_le _ _).trans ?_) (abs_nonneg _) hδ
      linarith [(hx n).2]
    exact (abs_sub_le _ _ _).trans (add_le_add h1 h4))
  refine ⟨g * (|e N| + A ^ 2), ?_, fun n => ⟨fin n, fun hn => ?_⟩⟩
  · rintro rfl
    rw [e0', abs_of_nonneg hm0]
  have key := key (n - N + 1)
  rw [← add_assoc, Nat.add_sub_cancel' hn, ← e2 n, pow_succ g] at key
  obtain ⟨hvf, hvz⟩ := k3 n
  have hfin := fin n
  rw [hyv n] at hfin ⊢
  have hv0 := sqrt_finite_nonneg hvf hfin
  obtain ⟨-, s2⟩ := Fl.sqrt_val hvf hv0
  rw [s2]
  have r := abs_rnd_sub_le_u f √(v n).toReal
  have hA0 : 0 < |A| := abs_pos.mpr hA
  have hs2 : 0 < √2 := by positivity
  obtain ⟨a, ha⟩ : ∃ a, a = |A| / √2 := ⟨_, rfl⟩
  have ha0 : 0 < a := by rw [ha]; positivity
  have haA : a ≤ |A| := by
    rw [ha]; exact div_le_self hA0.le (Real.one_le_sqrt.mpr (by norm_num))
  have ha2 : a ^ 2 = A ^ 2 / 2 := by rw [ha, div_pow, sq_abs, Real.sq_sqrt (by norm_num)]
  have hinv : √2 / |A| = 1 / a := by rw [ha]; field_simp
  have hQ : 6 * (f.u * (X ^ 2 + D) + f.tiny) / (1 - g) + D ≤ 9 * D / (1 - g) := by
    have h1 : 6 * (f.u * (X ^ 2 + D) + f.tiny) + D ≤ 9 * D := by
      rw [hD]
      have q1 : f.u * (f.u * X ^ 2) ≤ 1 / 4 * (f.u * X ^ 2) := mul_le_mul_of_nonneg_right hu4 huX
      have q2 : f.u * f.tiny ≤ 1 / 4 * f.tiny := mul_le_mul_of_nonneg_right hu4 ht.le
      nlinarith
    have h2 : D ≤ D / (1 - g) := le_div_self hD0 hg1 (by linarith [hg.1])
    refine (add_le_add_right h2 _).trans ?_
    rw [← add_div]
    exact div_le_div_of_nonneg_right h1 hg1.le
  rw [← hD, ← ha, hinv]
  obtain ⟨M, hM⟩ : ∃ M, M = A ^ 2 / 2 * ripple g w + g ^ (n - N) * (g * (|e N| + A ^ 2)) + 2 * X * δ + 9 * D / (1 - g) := ⟨_, rfl⟩
  rw [← hM]
  have hvM : |(v n).toReal - a ^ 2| ≤ M := by
    rw [hM, ha2]
    refine (abs_sub_le _ (z n) _).trans ?_
    have := add_le_add hvz key
    linarith
  have hroot : |√(v n).toReal - a| ≤ M / a := by
    rw [le_div_iff₀ ha0]
    refine le_trans ?_ hvM
    have h1 : (v n).toReal - a ^ 2 = (√(v n).toReal - a) * (√(v n).toReal + a) := by
      have := Real.sq_sqrt hv0
      linear_combination -this
    rw [h1, abs_mul]
    refine mul_le_mul_of_nonneg_left ?_ (abs_nonneg _)
    rw [abs_of_nonneg (by positivity)]
    linarith [Real.sqrt_nonneg (v n).toReal]
  have hsz : √(v n).toReal ≤ a + M / a := by linarith [(abs_le.mp hroot).2]
  rw [abs_of_nonneg (Real.sqrt_nonneg _)] at r
  have := mul_le_mul_of_nonneg_left hsz hu.le
  have h5 := mul_le_mul_of_nonneg_left haA hu.le
  have h6 := abs_sub_le (rnd f √(v n).toReal) √(v n).toReal a
  have h7 : (1 + f.u) * (1 / a) * M = M / a + f.u * (M / a) := by ring
  rw [h7]
  linarith

/-! ## The readings -/

/-- **C153.** An RMS detector with equal gains `g` in floating point, fed with samples of a sinusoid of amplitude `A`, reads `|A| / √2`, up to the
ripple at twice the frequency, what is left of the past, the errors of the samples and the rounding. -/
theorem C153_rms {d : RmsEnvDetector (Fl L)} {g : ℝ} (hgain : d.getReleaseGain = d.getAttackGain) (hgf : d.getAttackGain.Finite)
    (hgv : d.getAttackGain.toReal = g) (hg : g ∈ Set.Ico (0 : ℝ) 1) {X : ℝ} (hm : d.envelope.Within (X ^ 2)) (hm0 : 0 ≤ d.envelope.toReal)
    (hov : 4 * (X ^ 2 + f.tiny) ≤ 2 ^ f.emax) {A w φ η : ℝ} (hA : A ≠ 0) (hAX : |A| + η ≤ X) {x y : ℕ → Fl L} (hx : SampledSine x A w φ η)
    (hy : Responds b d x y) (n : ℕ) :
    (y n).Finite ∧ |(y n).toReal - |A| / √2| ≤ (1 + f.u) * (√2 / |A|) * (A ^ 2 / 2 * ripple g w + g ^ (n + 1) * (d.envelope.toReal + A ^ 2) +
      2 * X * η + 9 * (f.u * X ^ 2 + f.tiny) / (1 - g)) + f.u * |A| + f.tiny := by
  have hη : 0 ≤ η := (abs_nonneg _).trans (hx 0).2
  obtain ⟨C, hC, key⟩ := rms_near_sine (b := b) hgain hgf hgv hg hm hm0 hov hA (by linarith) (x := x) (y := y) (δ := η) (w := w) (φ := φ) (N := 0) (fun n => by
    refine ⟨(hx n).1, ?_⟩
    have h1 := (hx n).2
    have h2 : |A * Real.cos (w * n + φ)| ≤ |A| := by rw [abs_mul]; exact mul_le_of_le_one_right (abs_nonneg _) (Real.abs_cos_le_one _)
    have h3 := abs_sub_abs_le_abs_sub (x n).toReal (A * Real.cos (w * n + φ))
    linarith) (fun n _ => (hx n).2) hy
  obtain ⟨k1, k2⟩ := key n
  have k2 := k2 (Nat.zero_le n)
  rw [hC rfl, Nat.sub_zero, ← mul_assoc (g ^ n), ← pow_succ g] at k2
  exact ⟨k1, k2⟩

/-- **C153.** A filter and, after it, an RMS detector with equal gains, both in floating point: on a sinusoid the detector in the end reads the
amplitude that the exact filter gives it, `|G A|`, over `√2`. -/
theorem C153_response {σ τ : Type} [Processor σ (Fl L)] [Processor τ ℝ] {s : σ} {r : τ} {X E K G θ w : ℝ} (ht : Tracks (L := L) s r X E)
    (hK : GainAtMost b r K) (hs : ShiftsBy r w G θ) {d : RmsEnvDetector (Fl L)} {g : ℝ} (hgain : d.getReleaseGain = d.getAttackGain)
    (hgf : d.getAttackGain.Finite) (hgv : d.getAttackGain.toReal = g) (hg : g ∈ Set.Ico (0 : ℝ) 1) {Y : ℝ} (hY : K * X + E ≤ Y)
    (hm : d.envelope.Within (Y ^ 2)) (hm0 : 0 ≤ d.envelope.toReal) (hov : 4 * (Y ^ 2 + f.tiny) ≤ 2 ^ f.emax) {A φ η : ℝ} (hA : G * A ≠ 0)
    (hGA : |G * A| ≤ Y) (hAX : |A| + η ≤ X) {x y v : ℕ → Fl L} (hx : SampledSine x A w φ η) (hy : Responds b s x y) (hv : Responds b d y v) :
    (∀ n, (v n).Finite) ∧ ∀ ε > 0, ∀ᶠ n in atTop, |(v n).toReal - |G * A| / √2| ≤ (1 + f.u) * (√2 / |G * A|) * ((G * A) ^ 2 / 2 * ripple g w +
      2 * Y * (K * η + E) + 9 * (f.u * Y ^ 2 + f.tiny) / (1 - g)) + f.u * |G * A| + f.tiny + ε := by
  have hu := f.u_pos
  have hY0 : 0 ≤ Y := (abs_nonneg _).trans hGA
  have hxX : ∀ n, (x n).Within X := fun n => by
    refine ⟨(hx n).1, ?_⟩
    have h1 := (hx n).2
    have h2 : |A * Real.cos (w * n + φ)| ≤ |A| := by rw [abs_mul]; exact mul_le_of_le_one_right (abs_nonneg _) (Real.abs_cos_le_one _)
    have h3 := abs_sub_abs_le_abs_sub (x n).toReal (A * Real.cos (w * n + φ))
    linarith
  obtain ⟨z, hz⟩ := hK.1 (fun n => (x n).toReal)
  obtain ⟨c, hc⟩ := hK.1 (fun n => A * Real.cos (w * n + φ))
  have t1 := ht.2.2 b x y z hxX hy hz
  have t2 := hK.2.2 _ _ z c η hz hc (fun n => (hx n).2)
  have t3 := (hs A φ).2 b c hc
  have hyY : ∀ n, (y n).Within Y := fun n => by
    refine ⟨(t1 n).1, ?_⟩
    have h1 := hK.level hz (fun n => (hxX n).2) n
    have h2 := abs_sub_abs_le_abs_sub (y n).toReal (z n)
    linarith [(t1 n).2]
  have near : ∀ ε > 0, ∃ N, ∀ n, N ≤ n → |(y n).toReal - G * A * Real.cos (w * n + (φ + θ))| ≤ K * η + E + ε := by
    intro ε hε
    obtain ⟨N, hN⟩ := Metric.tendsto_atTop.mp t3 ε hε
    refine ⟨N, fun n hn => ?_⟩
    have h1 := hN n hn
    rw [Real.dist_eq, sub_zero] at h1
    beta_reduce at h1
    rw [add_assoc (w * (n : ℝ))] at h1
    have h2 := abs_sub_le (y n).toReal (z n) (c n)
    have h3 := abs_sub_le (y n).toReal (c n) (G * A * Real.cos (w * n + (φ + θ)))
    linarith [(t1 n).2, t2 n]
  refine ⟨?_, fun ε hε => ?_⟩
  · obtain ⟨N, hN⟩ := near 1 one_pos
    obtain ⟨C, -, key⟩ := rms_near_sine (b := b) hgain hgf hgv hg hm hm0 hov hA hGA hyY hN hv
    exact fun n => (key n).1
  obtain ⟨c0, hc0⟩ : ∃ c0, c0 = (1 + f.u) * (√2 / |G * A|) := ⟨_, rfl⟩
  have hc0p : 0 < c0 := by rw [hc0]; have := abs_pos.mpr hA; positivity
  obtain ⟨N, hN⟩ := near (ε / (4 * c0 * (Y + 1))) (by positivity)
  obtain ⟨C, -, key⟩ := rms_near_sine (b := b) hgain hgf hgv hg hm hm0 hov hA hGA hyY hN hv
  have lim : Tendsto (fun n => c0 * (g ^ (n - N) * C)) atTop (𝓝 (c0 * (0 * C))) :=
    (((tendsto_pow_atTop_nhds_zero_of_lt_one hg.1 hg.2).comp (tendsto_sub_atTop_nat N)).mul_const C).const_mul c0
  rw [zero_mul, mul_zero] at lim
  filter_upwards [lim.eventually (gt_mem_nhds (half_pos hε)), eventually_ge_atTop N] with n h1 h2
  refine ((key n).2 h2).trans ?_
  rw [← hc0]
  have h3 : c0 * (2 * Y * (ε / (4 * c0 * (Y + 1)))) ≤ ε / 2 := by
    have : c0 * (2 * Y * (ε / (4 * c0 * (Y + 1)))) = ε / 2 * (Y / (Y + 1)) := by field_simp; ring
    rw [this]
    exact mul_le_of_le_one_right (by linarith) ((div_le_one (by linarith)).mpr (by linarith))
  have h4 : c0 * ((G * A) ^ 2 / 2 * ripple g w + g ^ (n - N) * C + 2 * Y * (K * η + E + ε / (4 * c0 * (Y + 1))) + 9 * (f.u * Y ^ 2 + f.tiny) / (1 - g)) =
      c0 * ((G * A) ^ 2 / 2 * ripple g w + 2 * Y * (K * η + E) + 9 * (f.u * Y ^ 2 + f.tiny) / (1 - g)) + c0 * (g ^ (n - N) * C) +
        c0 * (2 * Y * (ε / (4 * c0 * (Y + 1)))) := by ring
  rw [h4]
  linarith

/-- **C153.** A cleared peak detector with attack gain zero and release gain `r` in floating point, on a sampled sinusoid. -/
theorem C153_peak {d : PeakEnvDetector (Fl L)} {r : ℝ} (haf : d.getAttackGain.Finite) (ha0 : d.getAttackGain.toReal = 0) (hrf : d.getReleaseGain.Finite)
    (hrv : d.getReleaseGain.toReal = r) (hr : r ∈ Set.Ioo (0 : ℝ) 1) {X : ℝ} (hov : 2 * X ≤ 2 ^ f.emax) {A w φ η : ℝ} (hAX : |A| + η ≤ X)
    (hw : 0 < w) (hw' : w ≤ Real.pi) {N : ℕ} (hN : Real.pi / w ≤ N) {x y : ℕ → Fl L} (hx : SampledSine x A w φ η) (hy : Responds b d.clear x y) (n : ℕ) :
    (y n).Finite ∧ (y n).toReal ≤ |A| + η + 6 * (f.u * X + f.tiny) / (1 - r) ∧
      (N ≤ n + 1 → |A| * Real.cos (w / 2) * r ^ (N - 1) - η - 6 * (f.u * X + f.tiny) / (1 - r) ≤ (y n).toReal) := by
  have hη : 0 ≤ η := (abs_nonneg _).trans (hx 0).2
  have hX : 0 ≤ X := by linarith [abs_nonneg A]
  have hxX : ∀ n, (x n).Within X := fun n => by
    refine ⟨(hx n).1, ?_⟩
    have h1 := (hx n).2
    have h2 : |A * Real.cos (w * n + φ)| ≤ |A| := by rw [abs_mul]; exact mul_le_of_le_one_right (abs_nonneg _) (Real.abs_cos_le_one _)
    have h3 := abs_sub_abs_le_abs_sub (x n).toReal (A * Real.cos (w * n + φ))
    linarith
  have hlog : Real.log r < 0 := Real.log_neg hr.1 hr.2
  obtain ⟨len, hlen⟩ : ∃ len, len = -1 / Real.log r := ⟨_, rfl⟩
  have hlen0 : 0 < len := by rw [hlen]; exact div_pos_of_neg_of_neg (by norm_num) hlog
  have hexp : ∀ c : ℝ, c / len = -(c * Real.log r) := fun c => by rw [hlen]; field_simp [hlog.ne]
  have hd : d.clear.exact = (PeakEnvDetector.new : PeakEnvDetector ℝ).setRelease len := by
    have e1 : d.clear.exact = ⟨0, r, 0⟩ := by
      show PeakEnvDetector.mk _ _ (zero : Fl L).toReal = _
      rw [zero_toReal, ← hrv, ← ha0]; rfl
    rw [e1]
    unfold PeakEnvDetector.setRelease
    have : (lt (zero : ℝ) len && isFinite len) = true := by
      rw [Bool.and_eq_true, real_lt]; exact ⟨hlen0, rfl⟩
    rw [if_pos this]
    show _ = PeakEnvDetector.mk 0 (Real.exp (-1 / len)) 0
    rw [hexp, neg_one_mul, neg_neg, Real.exp_log hr.1]
  obtain ⟨-, k2, k3⟩ := C74_peak (s := d.clear) (X := X) hr.2 ⟨haf, ha0.ge, by rw [show d.clear.attack_gain = d.getAttackGain from rfl, ha0]; exact hr.1.le⟩
    ⟨hrf, by rw [show d.clear.release_gain = d.getReleaseGain from rfl, hrv]; exact hr.1.le, hrv.le⟩
    ⟨zero_finite, by rw [show d.clear.envelope = zero from rfl, zero_toReal]; simpa using hX⟩ hov
  obtain ⟨z, hz⟩ := k2 b (fun n => (x n).toReal)
  have k3 := k3 b x y z hxX hy hz n
  obtain ⟨c, hc, hcb⟩ := C110_peak_sine hlen0 b (A := A) (φ := φ + Real.pi / 2) hw hw' hN
  have hc' : Responds b d.clear.exact (fun n => A * Real.cos (w * n + φ)) c := by
    rw [hd]
    have : (fun n : ℕ => A * Real.cos (w * n + φ)) = fun n : ℕ => A * Real.sin (w * n + (φ + Real.pi / 2)) := by
      funext n; rw [← add_assoc, Real.sin_add_pi_div_two]
    rw [this]; exact hc
  have hex : d.clear.exact = d.exact.clear := by
    show PeakEnvDetector.mk _ _ (zero : Fl L).toReal = _
    rw [zero_toReal]; rfl
  have hG := (C112_gain_detectors b).2.1 d.exact ⟨ha0.ge, by rw [show d.exact.getAttackGain = d.getAttackGain.toReal from rfl, ha0]; exact zero_le_one⟩
    ⟨by rw [show d.exact.getReleaseGain = d.getReleaseGain.toReal from rfl, hrv]; exact hr.1.le, by rw [show d.exact.getReleaseGain = d.getReleaseGain.toReal from rfl, hrv]; exact hr.2.le⟩
  rw [hex] at hz hc'
  have hzc := hG.2.2 _ _ z c η hz hc' (fun n => (hx n).2) n
  rw [one_mul] at hzc
  have q1 := abs_le.mp hzc
  have q2 := abs_le.mp k3.2
  refine ⟨k3.1, by linarith [(hcb n).1, q1.2, q2.2], fun hNn => ?_⟩
  have q3 := (hcb n).2 hNn
  have hN1 : 1 ≤ N := by
    have : 0 < (N : ℝ) := lt_of_lt_of_le (div_pos Real.pi_pos hw) hN
    exact_mod_cast this
  have q4 : Real.exp (-((N : ℝ) - 1) / len) = r ^ (N - 1) := by
    rw [hexp, neg_mul, neg_neg, show (N : ℝ) - 1 = ((N - 1 : ℕ) : ℝ) by push_cast [hN1]; ring, ← Real.log_pow, Real.exp_log (pow_pos hr.1 _)]
  rw [q4] at q3
  linarith [q1.1, q2.1]

/-! ## Periodic signals -/

/-- **C153.** Samples of period `N`: in the end a peak detector in floating point reads, up to the rounding, numbers of period `N` whose mean
is on one side of the mean magnitude, as in exact arithmetic. -/
theorem C153_peak_periodic {s : PeakEnvDetector (Fl L)} {X g : ℝ} (hg : g < 1) (ha : s.getAttackGain.Gain g) (hr : s.getReleaseGain.Gain g)
    (hm : s.lastOut.Within X) (hov : 2 * X ≤ 2 ^ f.emax) {N : ℕ} (hN : 0 < N) {x : ℕ → Fl L} (hx : ∀ n, (x n).Within X)
    (hp : ∀ n, (x (n + N)).toReal = (x n).toReal) : ∃ Y : ℕ → ℝ, (∀ n, Y (n + N) = Y n) ∧
      (∀ b y, Responds b s x y → (∀ n, (y n).Finite) ∧ ∀ ε > 0, ∀ᶠ n in atTop, |(y n).toReal - Y n| ≤ 6 * (f.u * X + f.tiny) / (1 - g) + ε) ∧
      (s.getAttackGain.toReal ≤ s.getReleaseGain.toReal → ∑ n ∈ Finset.range N, |(x n).toReal| ≤ ∑ n ∈ Finset.range N, Y n) ∧
      (s.getReleaseGain.toReal ≤ s.getAttackGain.toReal → ∑ n ∈ Finset.range N, Y n ≤ ∑ n ∈ Finset.range N, |(x n).toReal|) := by
  obtain ⟨Y, h1, h2, h3, h4, -⟩ := C110_peak_periodic (a := s.getAttackGain.toReal) (r := s.getReleaseGain.toReal) ⟨ha.2.1, ha.2.2.trans_lt hg⟩
    ⟨hr.2.1, hr.2.2.trans_lt hg⟩ hN (x := fun n => (x n).toReal) hp
  refine ⟨Y, h1, fun b y hy => ?_, h3, h4⟩
  obtain ⟨-, k2, k3⟩ := C74_peak hg ha hr hm hov
  obtain ⟨z, hz⟩ := k2 b (fun n => (x n).toReal)
  have k3 := k3 b x y z hx hy hz
  refine ⟨fun n => (k3 n).1, fun ε hε => ?_⟩
  filter_upwards [(Metric.tendsto_nhds.mp (h2 b s.exact z rfl rfl hz)) ε hε] with n hn
  rw [Real.dist_eq, sub_zero] at hn
  have := abs_sub_le (y n).toReal (z n) (Y n)
  linarith [(k3 n).2]

/-- **C153.** The same for the RMS detector and the squares. -/
theorem C153_rms_periodic {s : RmsEnvDetector (Fl L)} {X g : ℝ} (hX : 0 ≤ X) (hg : g < 1) (ha : s.getAttackGain.Gain g) (hr : s.getReleaseGain.Gain g)
    (hm : s.envelope.Within (X ^ 2)) (hm0 : 0 ≤ s.envelope.toReal) (hov : 4 * (X ^ 2 + f.tiny) ≤ 2 ^ f.emax) {N : ℕ} (hN : 0 < N) {x : ℕ → Fl L}
    (hx : ∀ n, (x n).Within X) (hp : ∀ n, (x (n + N)).toReal = (x n).toReal) : ∃ Y : ℕ → ℝ, (∀ n, Y (n + N) = Y n) ∧ (∀ n, 0 ≤ Y n) ∧
      (∀ b y, Responds b s x y → (∀ n, (y n).Finite) ∧ ∀ ε > 0, ∀ᶠ n in atTop,
        |(y n).toReal - Y n| ≤ 4 * √((f.u * X ^ 2 + f.tiny) / (1 - g)) + (f.u * X + f.tiny) + ε) ∧
      (s.getAttackGain.toReal ≤ s.getReleaseGain.toReal → ∑ n ∈ Finset.range N, (x n).toReal ^ 2 ≤ ∑ n ∈ Finset.range N, Y n ^ 2) ∧
      (s.getReleaseGain.toReal ≤ s.getAttackGain.toReal → ∑ n ∈ Finset.range N, Y n ^ 2 ≤ ∑ n ∈ Finset.range N, (x n).toReal ^ 2) := by
  obtain ⟨Y, h1, h0, h2, h3, h4, -⟩ := C110_rms_periodic (a := s.getAttackGain.toReal) (r := s.getReleaseGain.toReal) ⟨ha.2.1, ha.2.2.trans_lt hg⟩
    ⟨hr.2.1, hr.2.2.trans_lt hg⟩ hN (x := fun n => (x n).toReal) hp
  refine ⟨Y, h1, h0, fun b y hy => ?_, h3, h4⟩
  obtain ⟨-, k2, k3⟩ := C74_rms hX hg ha hr hm hm0 hov
  obtain ⟨z, hz⟩ := k2 b (fun n => (x n).toReal)
  have k3 := k3 b x y z hx hy hz
  refine ⟨fun n => (k3 n).1, fun ε hε => ?_⟩
  filter_upwards [(Metric.tendsto_nhds.mp (h2 b s.exact z rfl rfl hm0 hz)) (ε ^ 2) (by positivity)] with n hn
  rw [Real.dist_eq, sub_zero] at hn
  have hz0 : 0 ≤ z n := by
    obtain ⟨e, -, -, e2⟩ := rms_follows hz
    rw [e2]; exact Real.sqrt_nonneg _
  have q := abs_sqrt_sub_le (sq_nonneg (z n)) (sq_nonneg (Y n))
  rw [Real.sqrt_sq hz0, Real.sqrt_sq (h0 n)] at q
  have q2 : √|z n ^ 2 - Y n ^ 2| ≤ ε := by
    rw [← Real.sqrt_sq hε.le]; exact Real.sqrt_le_sqrt hn.le
  have := abs_sub_le (y n).toReal (z n) (Y n)
  linarith [(k3 n).2]

/-! ## In f32 -/

/-- **C153** in f32: a sinusoid of amplitude 1, rounded, and gains up to that of a length of 4800 samples (a tenth of a second at 48 kHz). -/
theorem C153_f32 {L : Libm binary32} {d : RmsEnvDetector (Fl L)} {g : ℝ} (hgain : d.getReleaseGain = d.getAttackGain) (hgf : d.getAttackGain.Finite)
    (hgv : d.getAttackGain.toReal = g) (hg0 : 0 ≤ g) (hg1 : g ≤ 1 - 1 / 4801) {w φ : ℝ} {x y : ℕ → Fl L} (hx : SampledSine x 1 w φ (1 / 2 ^ 24))
    (hy : Responds b d.clear x y) (n : ℕ) :
    (y n).Finite ∧ |(y n).toReal - 1 / √2| ≤ 0.71 * ripple g w + 1.42 * g ^ (n + 1) + 0.004 := by
  have hu : binary32.u = 1 / 2 ^ 24 := by simp [Fmt.u, binary32]
  have ht : binary32.tiny ≤ 1 / 2 ^ 100 := by
    simp only [Fmt.tiny, binary32]
    norm_num
  have ht0 := binary32.tiny_pos
  have hz : d.clear.envelope = zero := rfl
  obtain ⟨k1, k2⟩ := C153_rms (b := b) (d := d.clear) (X := 1 + 1 / 2 ^ 24) hgain hgf hgv ⟨hg0, by linarith⟩
    (by rw [hz]; exact ⟨zero_finite, by rw [zero_toReal]; norm_num⟩) (by rw [hz, zero_toReal]) (by
      have h2 : (8 : ℝ) ≤ 2 ^ binary32.emax := by simp only [binary32]; norm_num
      norm_num at ht ⊢
      linarith) one_ne_zero (by rw [abs_one]) hx hy n
  refine ⟨k1, ?_⟩
  rw [abs_one] at k2
  refine k2.trans ?_
  rw [hz, zero_toReal, hu, div_one]
  have hs : √2 ≤ 1.41422 := (Real.sqrt_le_left (by norm_num)).mpr (by norm_num)
  have hs0 : 0 ≤ √2 := Real.sqrt_nonneg 2
  have hr : 0 ≤ ripple g w := div_nonneg (by linarith) (Real.sqrt_nonneg _)
  have hp : 0 ≤ g ^ (n + 1) := pow_nonneg hg0 _
  have hq : 9 * (1 / 2 ^ 24 * (1 + 1 / 2 ^ 24) ^ 2 + binary32.tiny) / (1 - g) ≤ 0.0026 := by
    rw [div_le_iff₀ (by linarith)]
    norm_num at ht ⊢
    linarith
  have hc : (1 + 1 / 2 ^ 24) * √2 ≤ 1.4144 := by norm_num at hs ⊢; linarith
  have hc0 : 0 ≤ (1 + 1 / 2 ^ 24) * √2 := by positivity
  have hM : 1 ^ 2 / 2 * ripple g w + g ^ (n + 1) * (0 + 1 ^ 2) + 2 * (1 + 1 / 2 ^ 24) * (1 / 2 ^ 24) + 9 * (1 / 2 ^ 24 * (1 + 1 / 2 ^ 24) ^ 2 + binary32.tiny) / (1 - g) ≤
      ripple g w / 2 + g ^ (n + 1) + 0.0027 := by
    norm_num at hq ⊢
    linarith
  have := mul_le_mul hc hM (add_nonneg (by positivity) (div_nonneg (by positivity) (by linarith))) (by norm_num)
  norm_num at this ht ⊢
  linarith

/-- **C153** in f64: the gain of a low-pass at its frequency, measured with a sinusoid of amplitude 1/2 and a cleared RMS detector of length up to
48000 samples. -/
theorem C153_corner {L : Libm binary64} (hL : AccurateTrig L 2) {sr fc q : Fl L} (hsr : sr.Finite) (hfc : fc.Finite) (hq : q.Finite)
    (h1 : 1 ≤ sr.toReal) (h2 : sr.toReal ≤ 2 ^ 100) (h3 : sr.toReal / 16 ≤ fc.toReal) (h4 : fc.toReal ≤ 7 / 16 * sr.toReal)
    (h5 : 1 / 2 ≤ q.toReal) (h6 : q.toReal ≤ 1) {d : RmsEnvDetector (Fl L)} {g : ℝ} (hgain : d.getReleaseGain = d.getAttackGain)
    (hgf : d.getAttackGain.Finite) (hgv : d.getAttackGain.toReal = g) (hg0 : 0 ≤ g) (hg1 : g ≤ 1 - 1 / 48001) {φ : ℝ} (s : LowPass (Fl L))
    {x y v : ℕ → Fl L} (hx : SampledSine x (1 / 2) (angle sr.toReal fc.toReal) φ (1 / 2 ^ 54)) (hy : Responds b (s.setCoefficients sr fc q) x y)
    (hv : Responds b d.clear y v) :
    (∀ n, (v n).Finite) ∧ ∀ᶠ n in atTop, |(v n).toReal - q.toReal / (2 * √2)| ≤ 0.36 * ripple g (angle sr.toReal fc.toReal) + 1 / 10 ^ 4 := by
  have hvp : ValidParams sr.toReal fc.toReal q.toReal := ⟨by linarith, by linarith, by linarith⟩
  have hq0 : 0 < q.toReal := by linarith
  obtain ⟨t1, -⟩ := C83_f64 hL hsr hfc hq h1 h2 h3 h4 h5 h6
  have hK : GainAtMost b ((LowPass.new : LowPass ℝ).setCoefficients sr.toReal fc.toReal q.toReal) 21 :=
    ((C133_filters b hvp h5).1 _).gainAtMost (((LowPass.new : LowPass ℝ).implements _ _ _).isConvolution b) (by linarith)
  have hS : ShiftsBy ((LowPass.new : LowPass ℝ).setCoefficients sr.toReal fc.toReal q.toReal) (angle sr.toReal fc.toReal) q.toReal (-(Real.pi / 2)) := by
    intro A φ
    simpa only [← sub_eq_add_neg] using (C40_centre_gains hvp A φ).2.2.2.2.2.1 (LowPass.new : LowPass ℝ)
  have hu : binary64.u = 1 / 2 ^ 53 := by simp [Fmt.u, binary64]
  have ht : binary64.tiny ≤ 1 / 2 ^ 100 := by
    have : binary64.tiny ≤ (2 : ℝ) ^ (-100 : ℤ) := zpow_le_zpow_right₀ one_le_two (by decide)
    norm_num at this ⊢; exact this
  have ht0 := binary64.tiny_pos
  have hz : d.clear.envelope = zero := rfl
  have hbig : (2 : ℝ) ^ (150 : ℤ) ≤ 2 ^ binary64.emax := zpow_le_zpow_right₀ one_le_two (by decide)
  have e1 : |q.toReal * (1 / 2)| = q.toReal / 2 := by rw [abs_of_pos (by linarith)]; ring
  obtain ⟨k1, k2⟩ := C153_response (t1 s LowPass.new) hK hS (d := d.clear) (Y := 22) hgain hgf hgv ⟨hg0, by linarith⟩ (by norm_num)
    (by rw [hz]; exact ⟨zero_finite, by rw [zero_toReal]; norm_num⟩) (by rw [hz, zero_toReal]) (by norm_num at ht hbig ⊢; linarith)
    (A := 1 / 2) (by positivity) (by rw [e1]; linarith) (by rw [abs_of_pos (by norm_num)]; norm_num) hx hy hv
  refine ⟨k1, ?_⟩
  filter_upwards [k2 (1 / 10 ^ 5) (by norm_num)] with n hn
  rw [e1, hu, div_div] at hn
  refine hn.trans ?_
  obtain ⟨ρ, hρ⟩ : ∃ ρ, ρ = ripple g (angle sr.toReal fc.toReal) := ⟨_, rfl⟩
  rw [← hρ]
  have hr : 0 ≤ ρ := by rw [hρ]; exact div_nonneg (by linarith) (Real.sqrt_nonneg _)
  have hs : √2 ≤ 1.41422 := (Real.sqrt_le_left (by norm_num)).mpr (by norm_num)
  have hs0 : 0 ≤ √2 := Real.sqrt_nonneg 2
  have hq9 : 9 * (1 / 2 ^ 53 * 22 ^ 2 + binary64.tiny) / (1 - g) ≤ 1 / 10 ^ 7 := by
    rw [div_le_iff₀ (by linarith)]
    norm_num at ht ⊢
    linarith
  have hc : (1 + 1 / 2 ^ 53) * √2 ≤ 1.4143 := by norm_num at hs ⊢; linarith
  have hc0 : 0 ≤ (1 + 1 / 2 ^ 53) * √2 := by positivity
  have hM : 2 * 22 * (21 * (1 / 2 ^ 54) + 1 / 10 ^ 7) + 9 * (1 / 2 ^ 53 * 22 ^ 2 + binary64.tiny) / (1 - g) ≤ 5 / 10 ^ 6 := by
    norm_num at hq9 ⊢
    linarith
  have e2 : (1 + 1 / 2 ^ 53) * (√2 / (q.toReal / 2)) * ((q.toReal * (1 / 2)) ^ 2 / 2 * ρ + 2 * 22 * (21 * (1 / 2 ^ 54) + 1 / 10 ^ 7) +
      9 * (1 / 2 ^ 53 * 22 ^ 2 + binary64.tiny) / (1 - g)) = (1 + 1 / 2 ^ 53) * √2 * (q.toReal / 4 * ρ) + (1 + 1 / 2 ^ 53) * √2 * (2 / q.toReal *
        (2 * 22 * (21 * (1 / 2 ^ 54) + 1 / 10 ^ 7) + 9 * (1 / 2 ^ 53 * 22 ^ 2 + binary64.tiny) / (1 - g))) := by
    field_simp
    ring
  rw [e2]
  have hq2 : 2 / q.toReal ≤ 4 := by rw [div_le_iff₀ hq0]; linarith
  have b1 : (1 + 1 / 2 ^ 53) * √2 * (q.toReal / 4 * ρ) ≤ 1.4143 * (1 / 4 * ρ) :=
    mul_le_mul hc (mul_le_mul_of_nonneg_right (by linarith) hr) (by positivity) (by norm_num)
  have hM0 : 0 ≤ 2 * 22 * (21 * (1 / 2 ^ 54) + 1 / 10 ^ 7) + 9 * (1 / 2 ^ 53 * 22 ^ 2 + binary64.tiny) / (1 - g) :=
    add_nonneg (by norm_num) (div_nonneg (by positivity) (by linarith))
  have b2 : (1 + 1 / 2 ^ 53) * √2 * (2 / q.toReal * (2 * 22 * (21 * (1 / 2 ^ 54) + 1 / 10 ^ 7) + 9 * (1 / 2 ^ 53 * 22 ^ 2 + binary64.tiny) / (1 - g))) ≤
      1.4143 * (4 * (5 / 10 ^ 6)) :=
    mul_le_mul hc (mul_le_mul hq2 hM hM0 (by norm_num)) (mul_nonneg (by positivity) hM0) (by norm_num)
  norm_num at b1 b2 ht ⊢
  linarith

/-- Alternating signs are samples of a sinusoid, without error. -/
theorem alternating_sine : SampledSine (fun n => if Even n then (one : Fl L) else neg one) 1 Real.pi 0 0 := by
  intro n
  beta_reduce
  rw [one_mul, add_zero, mul_comm, Real.cos_nat_mul_pi]
  by_cases h : Even n
  · rw [if_pos h, h.neg_one_pow, one_toReal]
    exact ⟨one_finite, by simp⟩
  · rw [if_neg h, (Nat.not_even_iff_odd.mp h).neg_one_pow, neg_toReal, one_toReal]
    exact ⟨neg_finite.mpr one_finite, by simp⟩

/-- The conditions of `C153_f32` and `C153_peak`: alternating signs into detectors with gain 1/2 in single precision. -/
example {L : Libm binary32} : ∃ (d : RmsEnvDetector (Fl L)) (e : PeakEnvDetector (Fl L)) (x : ℕ → Fl L), d.getReleaseGain = d.getAttackGain ∧
    d.getAttackGain.Finite ∧ d.getAttackGain.toReal = 1 / 2 ∧ SampledSine x 1 Real.pi 0 (1 / 2 ^ 24) ∧ e.getAttackGain.Finite ∧
    e.getAttackGain.toReal = 0 ∧ e.getReleaseGain.Finite ∧ e.getReleaseGain.toReal = 1 / 2 ∧ 2 * (1 + 1 / 2 ^ 24) ≤ (2 : ℝ) ^ binary32.emax ∧
    Real.pi / Real.pi ≤ (1 : ℕ) := by
  have h1 : (1 / 2 : ℝ) = 2 ^ (-1 : ℤ) := by norm_num
  obtain ⟨v, hv, e⟩ := Fl.exists_of_isRep L (v := 1 / 2) (by rw [h1]; exact isRep_two_zpow (by decide)) (by unfold Fmt.lim; norm_num [binary32])
  refine ⟨⟨v, v, zero⟩, ⟨zero, v, zero⟩, _, rfl, hv, e, fun n => ⟨(alternating_sine n).1, (alternating_sine n).2.trans (by norm_num)⟩, zero_finite, zero_toReal, hv, e,
    by norm_num [binary32], by rw [div_self Real.pi_ne_zero]; norm_num⟩

end Rasp
