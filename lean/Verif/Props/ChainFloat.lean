import Verif.Spec.ChainFloat
import Verif.Props.Headroom
import Verif.Props.Series
import Verif.Props.RbjFloat
import Verif.Props.RoundingAnalysis
import Verif.Props.EnvelopeScale
import Verif.Props.LinearClose

/-!
# C112: chains of processors in floating point
-/

namespace Rasp
open FloatOps Fl
variable {f : Fmt} {L : Libm f} {b : Build} {σ τ : Type} [Processor σ (Fl L)] [Processor τ ℝ] {s : σ} {r : τ} {X E G : ℝ}

/-! ## The chain -/

theorem GainAtMost.level (h : GainAtMost b r G) {x y : ℕ → ℝ} (hy : Responds b r x y) (hx : ∀ n, |x n| ≤ X) (n : ℕ) : |y n| ≤ G * X := by
  simpa using h.2.2 x _ y _ X hy h.2.1 (fun n => by simpa using hx n) n

theorem GainAtMost.nonneg (h : GainAtMost b r G) : 0 ≤ G := by
  obtain ⟨y, hy⟩ := h.1 fun _ => 1
  have := (abs_nonneg _).trans (h.level (X := 1) hy (fun _ => by simp) 0)
  linarith

theorem Follows.nonneg (h : Follows (L := L) b s r X E) (hX : 0 ≤ X) : 0 ≤ E := by
  obtain ⟨y, z, -, -, h⟩ := h (fun _ => zero) fun _ => ⟨zero_finite, by rw [zero_toReal]; simpa using hX⟩
  exact (abs_nonneg _).trans (h 0).2

theorem chain_aux (b : Build) : ∀ (ps : List (Twin L × ℝ × ℝ)) (X D : ℝ), Suits b ps X → ∀ (x : ℕ → Fl L) (x' : ℕ → ℝ), (∀ n, (x n).Within X) →
    (∀ n, |(x n).toReal - x' n| ≤ D) → ∃ y z, FlThrough b (ps.map Prod.fst) x y ∧ Through b (exactStages (ps.map Prod.fst)) x' z ∧
      ∀ n, (y n).Finite ∧ |(y n).toReal - z n| ≤ accumulated (ps.map Prod.snd) D := by
  intro ps
  induction ps with
  | nil => exact fun X D _ x x' hx hd => ⟨x, x', rfl, rfl, fun n => ⟨(hx n).1, hd n⟩⟩
  | cons p ps ih =>
    rintro X D ⟨h1, h2, h3⟩ x x' hx hd
    obtain ⟨p, E, G⟩ := p
    obtain ⟨y, z, hy, hz, hyz⟩ := h1 x hx
    obtain ⟨z', hz'⟩ := h2.1 x'
    obtain ⟨v, w, hv, hw, hvw⟩ := ih (G * X + E) (G * D + E) h3 y z' (fun n => ⟨(hyz n).1, by
      have := h2.level hz (fun n => (hx n).2) n
      have := (hyz n).2
      have := abs_add_le ((y n).toReal - z n) (z n)
      rw [sub_add_cancel] at this
      linarith⟩) (fun n => by
      have := h2.2.2 _ _ _ _ D hz hz' hd n
      have := (hyz n).2
      have := abs_add_le ((y n).toReal - z n) (z n - z' n)
      rw [sub_add_sub_cancel] at this
      linarith)
    exact ⟨v, w, ⟨y, hy, hv⟩, ⟨z', hz', hw⟩, hvw⟩

/-- **C112.** A chain of processors of any kinds in floating point against the same chain in exact arithmetic: the output is finite
and off by at most the stages' own errors, each amplified by the gains of the later stages, however long the stream is. -/
theorem C112_chain {ps : List (Twin L × ℝ × ℝ)} (h : Suits b ps X) (x : ℕ → Fl L) (hx : ∀ n, (x n).Within X) :
    ∃ y z, FlThrough b (ps.map Prod.fst) x y ∧ Through b (exactStages (ps.map Prod.fst)) (fun n => (x n).toReal) z ∧
      ∀ n, (y n).Finite ∧ |(y n).toReal - z n| ≤ accumulated (ps.map Prod.snd) 0 :=
  chain_aux b ps X 0 h x _ hx fun n => by simp

/-- **C112.** Stages that do not amplify: the errors add up. -/
theorem C112_errors_add (l : List (ℝ × ℝ)) (h : ∀ p ∈ l, p.2 ≤ 1) (h' : ∀ p ∈ l, 0 ≤ p.1) {D : ℝ} (hD : 0 ≤ D) (h0 : ∀ p ∈ l, 0 ≤ p.2) :
    accumulated l D ≤ D + (l.map Prod.fst).sum := by
  induction l generalizing D with
  | nil => simp [accumulated]
  | cons p l ih =>
    obtain ⟨E, G⟩ := p
    have hG := h (E, G) List.mem_cons_self
    have hE := h' (E, G) List.mem_cons_self
    have hG0 := h0 (E, G) List.mem_cons_self
    simp only at hG hE hG0
    have := ih (fun p hp => h p (List.mem_cons_of_mem _ hp)) (fun p hp => h' p (List.mem_cons_of_mem _ hp)) (D := G * D + E)
      (by positivity) (fun p hp => h0 p (List.mem_cons_of_mem _ hp))
    rw [List.map_cons, List.sum_cons]
    show accumulated l (G * D + E) ≤ _
    nlinarith

/-! ## Stages -/

theorem Tracks.follows (h : Tracks (L := L) s r X E) (b : Build) : Follows b s r X E := by
  intro x hx
  obtain ⟨y, hy⟩ := h.1 b x
  obtain ⟨z, hz⟩ := h.2.1 b fun n => (x n).toReal
  exact ⟨y, z, hy, hz, h.2.2 b x y z hx hy hz⟩

/-- **C112**, gains: a filter that convolves has its peak gain (C107). -/
theorem C112_gain_filter (hc : IsConvolution b r) (h : HasPeakGain b r G) : GainAtMost b r G := by
  obtain ⟨k, hk, hi⟩ := hc
  rw [hasPeakGain_iff hi] at h
  refine ⟨fun x => ⟨_, (hi _ _).mpr rfl⟩, (hi _ _).mpr ?_, fun x x' y y' D hy hy' hx n => ?_⟩
  · funext n; simp [convolve]
  · rw [(hi _ _).mp hy, (hi _ _).mp hy', show convolve k x n - convolve k x' n = convolve k (fun n => x n - x' n) n by
      simp only [convolve, mul_sub, Finset.sum_sub_distrib]]
    have hD : 0 ≤ D := (abs_nonneg _).trans (hx 0)
    exact (abs_convolve_le hx n).trans (mul_le_mul_of_nonneg_right (sum_le_hasSum _ (fun _ _ => abs_nonneg _) h) hD)

theorem followed_shift (a r e i D : ℝ) : followed a r (e + D) (i + D) = followed a r e i + D := by
  unfold followed
  simp only [add_lt_add_iff_right, add_sub_add_right_eq_sub]
  split <;> ring

theorem followed_near {a r : ℝ} (ha : a ∈ Set.Icc (0 : ℝ) 1) (hr : r ∈ Set.Icc (0 : ℝ) 1) {e e' i i' D : ℝ} (he : |e - e'| ≤ D) (hi : |i - i'| ≤ D) :
    |followed a r e i - followed a r e' i'| ≤ D := by
  rw [abs_le] at he hi ⊢
  have h1 := followed_mono ha hr (show e ≤ e' + D by linarith) (show i ≤ i' + D by linarith)
  have h2 := followed_mono ha hr (show e' ≤ e + D by linarith) (show i' ≤ i + D by linarith)
  rw [followed_shift] at h1 h2
  constructor <;> linarith

theorem sqrt_shift {g p q D : ℝ} (g0 : 0 ≤ g) (g1 : g ≤ 1) (hD : 0 ≤ D) :
    √(g * (p + D) ^ 2 + (1 - g) * (q + D) ^ 2) ≤ √(g * p ^ 2 + (1 - g) * q ^ 2) + D := by
  have hs : 0 ≤ g * p ^ 2 + (1 - g) * q ^ 2 := by
    have := sub_nonneg.mpr g1; positivity
  have hR := Real.sqrt_nonneg (g * p ^ 2 + (1 - g) * q ^ 2)
  rw [Real.sqrt_le_left (by positivity)]
  have h2 := Real.sq_sqrt hs
  have key : g * p + (1 - g) * q ≤ √(g * p ^ 2 + (1 - g) * q ^ 2) := by
    apply Real.le_sqrt_of_sq_le
    nlinarith [mul_nonneg (mul_nonneg g0 (sub_nonneg.mpr g1)) (sq_nonneg (p - q))]
  nlinarith [mul_le_mul_of_nonneg_right key hD]

theorem sqrt_followed_shift {a r : ℝ} (ha : a ∈ Set.Icc (0 : ℝ) 1) (hr : r ∈ Set.Icc (0 : ℝ) 1) {p q D : ℝ} (hp : 0 ≤ p) (hq : 0 ≤ q) (hD : 0 ≤ D) :
    √(followed a r ((p + D) ^ 2) ((q + D) ^ 2)) ≤ √(followed a r (p ^ 2) (q ^ 2)) + D := by
  have e : (p + D) ^ 2 < (q + D) ^ 2 ↔ p ^ 2 < q ^ 2 := by
    rw [sq_lt_sq₀ (by positivity) (by positivity), sq_lt_sq₀ hp hq, add_lt_add_iff_right]
  unfold followed
  simp only [e]
  split_ifs
  · convert sqrt_shift (p := p) (q := q) ha.1 ha.2 hD using 2 <;> ring_nf
  · convert sqrt_shift (p := p) (q := q) hr.1 hr.2 hD using 2 <;> ring_nf

/-- **C112**, gains: no detector amplifies a difference between two inputs. -/
theorem C112_gain_detectors (b : Build) :
    (∀ s : LeakyIntegrator ℝ, s.getAlpha ∈ Set.Icc (0 : ℝ) 1 → GainAtMost b s.clear 1) ∧
    (∀ s : PeakEnvDetector ℝ, s.getAttackGain ∈ Set.Icc (0 : ℝ) 1 → s.getReleaseGain ∈ Set.Icc (0 : ℝ) 1 → GainAtMost b s.clear 1) ∧
    (∀ s : RmsEnvDetector ℝ, s.getAttackGain ∈ Set.Icc (0 : ℝ) 1 → s.getReleaseGain ∈ Set.Icc (0 : ℝ) 1 → GainAtMost b s.clear 1) := by
  refine ⟨fun s h => ?_, fun s ha hr => ?_, fun s ha hr => ?_⟩
  · refine ⟨NeverPanics.responds leaky_never b _, ⟨fun _ => s.clear, rfl, fun n => ?_⟩, ?_⟩
    · refine congrArg Except.ok (Prod.ext ?_ ?_)
      · show ({ s.clear with y_z1 := 0 + s.alpha * (0 - 0) } : LeakyIntegrator ℝ) = _
        simp [LeakyIntegrator.clear]
      · show 0 + s.alpha * (0 - 0) = (0 : ℝ)
        simp
    · rintro x x' y y' D hy hy' hx n
      obtain ⟨w, w', hw, hw', hQ⟩ := responds_pair leaky_never b
        (fun _ u v => u.alpha = s.alpha ∧ v.alpha = s.alpha ∧ |u.y_z1 - v.y_z1| ≤ D) (fun _ y y' => |y - y'| ≤ D) x x' (s := s.clear) (t := s.clear)
        ⟨rfl, rfl, by simpa using (abs_nonneg _).trans (hx 0)⟩ (by
          rintro n u v u' v' y y' ⟨h1, h2, h3⟩ hu hv
          obtain ⟨rfl, rfl⟩ := Prod.mk.inj (Except.ok.inj hu)
          obtain ⟨rfl, rfl⟩ := Prod.mk.inj (Except.ok.inj hv)
          have : |(u.process (x n)).2 - (v.process (x' n)).2| ≤ D := by
            show |x n + u.alpha * (u.y_z1 - x n) - (x' n + v.alpha * (v.y_z1 - x' n))| ≤ D
            rw [h1, h2]
            have h3' := abs_le.mp h3
            have hx' := abs_le.mp (hx n)
            obtain ⟨h0, h1⟩ : 0 ≤ s.alpha ∧ s.alpha ≤ 1 := h
            rw [abs_le]
            constructor <;> nlinarith
          exact ⟨⟨h1, h2, this⟩, this⟩)
      rw [hy.unique hw, hy'.unique hw', one_mul]
      exact hQ n
  · refine ⟨NeverPanics.responds peak_never b _, ⟨fun _ => s.clear, rfl, fun n => ?_⟩, ?_⟩
    · have e : (s.clear.process 0).1.envelope = 0 := by rw [peak_envelope]; simp [followed, PeakEnvDetector.clear]
      refine congrArg Except.ok (Prod.ext ?_ e)
      show ({ s.clear with envelope := (s.clear.process 0).1.envelope } : PeakEnvDetector ℝ) = s.clear
      rw [e]; rfl
    · rintro x x' y y' D hy hy' hx n
      obtain ⟨w, w', hw, hw', hQ⟩ := responds_pair peak_never b
        (fun _ u v => (u.attack_gain = s.attack_gain ∧ u.release_gain = s.release_gain ∧ v.attack_gain = s.attack_gain ∧ v.release_gain = s.release_gain) ∧
          |u.envelope - v.envelope| ≤ D) (fun _ y y' => |y - y'| ≤ D) x x' (s := s.clear) (t := s.clear)
        ⟨⟨rfl, rfl, rfl, rfl⟩, by simpa using (abs_nonneg _).trans (hx 0)⟩ (by
          rintro n u v u' v' y y' ⟨⟨h1, h2, h3, h4⟩, h5⟩ hu hv
          obtain ⟨rfl, rfl⟩ := Prod.mk.inj (Except.ok.inj hu)
          obtain ⟨rfl, rfl⟩ := Prod.mk.inj (Except.ok.inj hv)
          have : |(u.process (x n)).1.envelope - (v.process (x' n)).1.envelope| ≤ D := by
            rw [peak_envelope, peak_envelope, h1, h2, h3, h4]
            exact followed_near ha hr h5 ((abs_abs_sub_abs_le _ _).trans (hx n))
          exact ⟨⟨⟨h1, h2, h3, h4⟩, this⟩, this⟩)
      rw [hy.unique hw, hy'.unique hw', one_mul]
      exact hQ n
  · refine ⟨NeverPanics.responds rms_never b _, ⟨fun _ => s.clear, rfl, fun n => ?_⟩, ?_⟩
    · have e : (s.clear.process 0).1.envelope = 0 := by rw [rms_envelope]; simp [followed, RmsEnvDetector.clear]
      refine congrArg Except.ok (Prod.ext ?_ ?_)
      · show ({ s.clear with envelope := (s.clear.process 0).1.envelope } : RmsEnvDetector ℝ) = s.clear
        rw [e]; rfl
      · show √(s.clear.process 0).1.envelope = 0
        rw [e, Real.sqrt_zero]
    · rintro x x' y y' D hy hy' hx n
      have hD : 0 ≤ D := (abs_nonneg _).trans (hx 0)
      have half : ∀ {p p' q q' : ℝ}, 0 ≤ p → 0 ≤ p' → √p ≤ √p' + D → |q| ≤ |q'| + D →
          √(followed s.attack_gain s.release_gain p (q ^ 2)) ≤ √(followed s.attack_gain s.release_gain p' (q' ^ 2)) + D := by
        intro p p' q q' hp hp' h1 h2
        refine le_trans (Real.sqrt_le_sqrt (followed_mono ha hr (e' := (√p' + D) ^ 2) (i' := (|q'| + D) ^ 2) ?_ ?_)) ?_
        · rw [← Real.sq_sqrt hp]; exact pow_le_pow_left₀ (Real.sqrt_nonneg _) h1 2
        · rw [← sq_abs q]; exact pow_le_pow_left₀ (abs_nonneg _) h2 2
        · have := sqrt_followed_shift ha hr (Real.sqrt_nonneg p') (abs_nonneg q') hD
          rwa [Real.sq_sqrt hp', sq_abs] at this
      obtain ⟨w, w', hw, hw', hQ⟩ := responds_pair rms_never b
        (fun _ u v => (u.attack_gain = s.attack_gain ∧ u.release_gain = s.release_gain ∧ v.attack_gain = s.attack_gain ∧ v.release_gain = s.release_gain) ∧
          0 ≤ u.envelope ∧ 0 ≤ v.envelope ∧ |√u.envelope - √v.envelope| ≤ D) (fun _ y y' => |y - y'| ≤ D) x x' (s := s.clear) (t := s.clear)
        ⟨⟨rfl, rfl, rfl, rfl⟩, le_refl (0 : ℝ), le_refl (0 : ℝ), by simpa using hD⟩ (by
          rintro n u v u' v' y y' ⟨⟨h1, h2, h3, h4⟩, h5, h6, h7⟩ hu hv
          obtain ⟨rfl, rfl⟩ := Prod.mk.inj (Except.ok.inj hu)
          obtain ⟨rfl, rfl⟩ := Prod.mk.inj (Except.ok.inj hv)
          have hd := abs_le.mp ((abs_abs_sub_abs_le _ _).trans (hx n))
          have h7' := abs_le.mp h7
          have : |√(u.process (x n)).1.envelope - √(v.process (x' n)).1.envelope| ≤ D := by
            rw [rms_envelope, rms_envelope, h1, h2, h3, h4, abs_le]
            have l1 := half (q := x n) (q' := x' n) h5 h6 (by linarith) (by linarith)
            have l2 := half (q := x' n) (q' := x n) h6 h5 (by linarith) (by linarith)
            constructor <;> linarith
          refine ⟨⟨⟨h1, h2, h3, h4⟩, ?_, ?_, this⟩, this⟩
          · show 0 ≤ (u.process (x n)).1.envelope
            rw [rms_envelope, h1, h2]; exact (followed_between ha hr _ _).1.trans' (le_min h5 (sq_nonneg _))
          · show 0 ≤ (v.process (x' n)).1.envelope
            rw [rms_envelope, h3, h4]; exact (followed_between ha hr _ _).1.trans' (le_min h6 (sq_nonneg _)))
      rw [hy.unique hw, hy'.unique hw', one_mul]
      exact hQ n

/-- **C112**, delay lines: an integer delay adds no error, an interpolating one that of C78. Neither amplifies. -/
theorem C112_delays [Target] {m : ℕ} (hm : Allocatable (Fl L) m) (hm' : Allocatable ℝ m) :
    (∀ (d : ℕ) (s : Delay (Fl L)) (r : Delay ℝ), Delay.new b d m = .ok s → Delay.new b d m = .ok r → Follows b s r X 0 ∧ GainAtMost b r 1) ∧
    (24 ≤ f.p → f.emin ≤ -149 → m + 1 < 2 ^ 24 → 4 * (X + f.tiny) ≤ 2 ^ f.emax →
      ∀ {L32 : Libm binary32} (d : Fl L32) (s : LinearDelay (Fl L32) (Fl L)) (r : LinearDelay ℝ ℝ), d.Finite → ClearOf (m + 1) (max 0 (min d.toReal m)) →
        LinearDelay.new b d m = .ok s → LinearDelay.new b d.toReal m = .ok r →
        Follows b s r X (2 * X * ((m + 1 : ℕ) / 2 ^ 22) + 6 * (f.u * X + f.tiny)) ∧ GainAtMost b r 1) := by
  refine ⟨fun d s r hs hr => ?_, fun hp hem hl hov L32 d s r hd hcl hs hr => ?_⟩
  · obtain ⟨s', hs', h⟩ := C07_new_delay_is_pure_delay (b := b) (d := d) hm
    obtain ⟨r', hr', h'⟩ := C07_new_delay_is_pure_delay (b := b) (d := d) hm'
    rw [hs'] at hs
    rw [hr'] at hr
    cases hs
    cases hr
    constructor
    · intro x hx
      refine ⟨_, _, (h x _).mpr rfl, (h' _ _).mpr rfl, fun n => ?_⟩
      split_ifs
      · exact ⟨(hx _).1, by simp⟩
      · exact ⟨zero_finite, by rw [zero_toReal]; simp⟩
    · exact C112_gain_filter ((C87_delays hm').1 d r hr') ((C107_delays hm').1 d r hr')
  · obtain ⟨s', hs', -, -, h⟩ := C78_new_accurate (b := b) hp hem hm hl hov hd rfl hcl
    obtain ⟨r', hr', hg, h'⟩ := C20_new_interpolates (b := b) hm' d.toReal
    rw [hs'] at hs
    rw [hr'] at hr
    cases hs
    cases hr
    constructor
    · intro x hx
      obtain ⟨y, hy, hyz⟩ := h x hx
      exact ⟨y, _, hy, (h' _ _).mpr rfl, hyz⟩
    · exact C112_gain_filter ((C87_delays hm').2.2.1 d.toReal r hr') ((C107_delays hm').2 d.toReal r hr')

/-! ## Stable recursions -/

theorem SolvesDiff.bounded {b0 b1 b2 a1 a2 m S : ℝ} (h : PoleMargin a1 a2 m) (hS : |b0| + |b1| + |b2| ≤ S) {x y : ℕ → ℝ} (hx : ∀ n, |x n| ≤ X)
    (hy : SolvesDiff b0 b1 b2 a1 a2 x y) (n : ℕ) : |y n| ≤ S / m * X := by
  have hX : 0 ≤ X := (abs_nonneg _).trans (hx 0)
  have hm := h.pos
  have hS0 : 0 ≤ S := le_trans (by positivity) hS
  have lagle : ∀ (k n : ℕ), |lag x k n| ≤ X := by
    intro k n
    unfold lag
    split_ifs
    · exact hx _
    · simpa using hX
  obtain ⟨p, q, hp, hpm⟩ := h.poles
  have := recursion_error hp.sum hp.prod hp.hp hp.hq (e := y) (d := fun n => b0 * x n + b1 * lag x 1 n + b2 * lag x 2 n)
    (B := S * X) (n := n) (fun n => by rw [hy n]) (fun j _ => by
      have t1 := abs_add_le (b0 * x j + b1 * lag x 1 j) (b2 * lag x 2 j)
      have t2 := abs_add_le (b0 * x j) (b1 * lag x 1 j)
      rw [abs_mul] at t1
      rw [abs_mul, abs_mul] at t2
      have q0 := mul_le_mul_of_nonneg_left (hx j) (abs_nonneg b0)
      have q1 := mul_le_mul_of_nonneg_left (lagle 1 j) (abs_nonneg b1)
      have q2 := mul_le_mul_of_nonneg_left (lagle 2 j) (abs_nonneg b2)
      have := mul_le_mul_of_nonneg_right hS hX
      linarith)
  refine this.trans ((div_le_div_of_nonneg_left (by positivity) hm hpm).trans (le_of_eq ?_))
  ring

theorem Implements.gainAtMost {b0 b1 b2 a1 a2 m S : ℝ} (hi : Implements r b0 b1 b2 a1 a2) (h : PoleMargin a1 a2 m) (hS : |b0| + |b1| + |b2| ≤ S) :
    GainAtMost b r (S / m) := by
  refine ⟨hi.from.total b, (hi b _ _).mpr fun n => ?_, fun x x' y y' D hy hy' hx n => ?_⟩
  · simp [lag]
  · refine SolvesDiff.bounded h hS (x := fun n => x n - x' n) (y := fun n => y n - y' n) hx (fun n => ?_) n
    have e := (hi b _ _).mp hy n
    have e' := (hi b _ _).mp hy' n
    have l : ∀ (u v : ℕ → ℝ) k, lag (fun n => u n - v n) k n = lag u k n - lag v k n := by
      intro u v k; unfold lag; split_ifs <;> simp
    beta_reduce
    rw [e, e', l, l, l, l]
    ring

section
variable {sr fc q : ℝ}

theorem alphaQ_near {q q' : ℝ} (h : ValidParams sr fc q) (h5 : 7 / 10 ≤ q) (h5' : 7 / 10 ≤ q') : |alphaQ sr fc q - alphaQ sr fc q'| ≤ 11 / 10 * |q - q'| := by
  have s0 := h.sin_pos
  have s1 := Real.sin_le_one (angle sr fc)
  have e : alphaQ sr fc q - alphaQ sr fc q' = Real.sin (angle sr fc) / (2 * q * q') * (q' - q) := by
    unfold alphaQ
    have : 0 < q := by linarith
    have : 0 < q' := by linarith
    field_simp
  rw [e, abs_mul, abs_sub_comm q q']
  refine mul_le_mul_of_nonneg_right ?_ (abs_nonneg _)
  rw [abs_of_pos (by positivity), div_le_iff₀ (by positivity)]
  nlinarith

/-- **C112**, gains of the rbj filters in terms of the distance of their poles from the unit circle. -/
theorem C112_gain_rbj (h : ValidParams sr fc q) (b : Build) :
    (∀ r : LowPass ℝ, GainAtMost b (r.setCoefficients sr fc q) (4 / rbjMargin sr fc q)) ∧
    (∀ r : HighPass ℝ, GainAtMost b (r.setCoefficients sr fc q) (4 / rbjMargin sr fc q)) ∧
    (∀ r : BandPass1 ℝ, GainAtMost b (r.setCoefficients sr fc q) (4 / rbjMargin sr fc q)) ∧
    (∀ r : BandPass2 ℝ, GainAtMost b (r.setCoefficients sr fc q) (4 / rbjMargin sr fc q)) ∧
    (∀ r : BandStop ℝ, GainAtMost b (r.setCoefficients sr fc q) (4 / rbjMargin sr fc q)) ∧
    (∀ r : AllPass ℝ, GainAtMost b (r.setCoefficients sr fc q) (4 / rbjMargin sr fc q)) := by
  have hm := rbj_poleMargin h
  have hα := h.alphaQ_pos
  have hq : 0 < q := h.2.2
  have s0 := h.sin_pos
  have s1 := Real.sin_le_one (angle sr fc)
  have c1 := abs_le.mp (Real.abs_cos_le_one (angle sr fc))
  have eα : q * alphaQ sr fc q = Real.sin (angle sr fc) / 2 := by
    unfold alphaQ; field_simp
  have ha : 0 < 1 + alphaQ sr fc q := by linarith
  have key : ∀ {n0 n1 n2 : ℝ}, |n0| + |n1| + |n2| ≤ 4 * (1 + alphaQ sr fc q) →
      |n0 / (1 + alphaQ sr fc q)| + |n1 / (1 + alphaQ sr fc q)| + |n2 / (1 + alphaQ sr fc q)| ≤ 4 := by
    intro n0 n1 n2 hn
    simp only [abs_div, abs_of_pos ha]
    rwa [← add_div, ← add_div, div_le_iff₀ ha]
  refine ⟨fun r => (r.implements _ _ _).gainAtMost hm (key ?_), fun r => (r.implements _ _ _).gainAtMost hm (key ?_),
    fun r => (r.implements _ _ _).gainAtMost hm (key ?_), fun r => (r.implements _ _ _).gainAtMost hm (key ?_),
    fun r => (r.implements _ _ _).gainAtMost hm (key ?_), fun r => (r.implements _ _ _).gainAtMost hm (key ?_)⟩
  · rw [abs_of_nonneg (by linarith), abs_of_nonneg (by linarith)]; linarith
  · rw [abs_of_nonneg (by linarith), abs_of_nonpos (by linarith)]; linarith
  · rw [neg_mul, _root_.abs_neg, eα, _root_.abs_zero, abs_of_nonneg (by linarith)]; linarith
  · rw [_root_.abs_neg, _root_.abs_zero, abs_of_nonneg hα.le]; linarith
  · have e1 : |-2 * Real.cos (angle sr fc)| ≤ 2 := by rw [abs_le]; constructor <;> linarith
    rw [abs_one]; linarith
  · have e1 : |-2 * Real.cos (angle sr fc)| ≤ 2 := by rw [abs_le]; constructor <;> linarith
    have e2 : |1 - alphaQ sr fc q| ≤ 1 + alphaQ sr fc q := by
      rw [abs_le]; constructor <;> linarith
    rw [abs_of_nonneg (show 0 ≤ 1 + alphaQ sr fc q by linarith)]; linarith


/-- A slightly different `q` gives a slightly different output. -/
theorem rbj_q_near {q q' : ℝ} {n0 n1 n2 : ℝ} (h : ValidParams sr fc q) (h5 : 7 / 10 ≤ q) (h5' : 7 / 10 ≤ q') (hm : 18 * |q - q'| ≤ rbjMargin sr fc q)
    (l0 : |n0| ≤ 2) (l1 : |n1| ≤ 2) (l2 : |n2| ≤ 2) (l : |n0| + |n1| + |n2| ≤ 4) {x y z : ℕ → ℝ} (hx : ∀ n, |x n| ≤ X)
    (hy : SolvesDiff (n0 / (1 + alphaQ sr fc q)) (n1 / (1 + alphaQ sr fc q)) (n2 / (1 + alphaQ sr fc q)) (-2 * Real.cos (angle sr fc) / (1 + alphaQ sr fc q))
      ((1 - alphaQ sr fc q) / (1 + alphaQ sr fc q)) x y)
    (hz : SolvesDiff (n0 / (1 + alphaQ sr fc q')) (n1 / (1 + alphaQ sr fc q')) (n2 / (1 + alphaQ sr fc q')) (-2 * Real.cos (angle sr fc) / (1 + alphaQ sr fc q'))
      ((1 - alphaQ sr fc q') / (1 + alphaQ sr fc q')) x z) (n : ℕ) : |z n - y n| ≤ 50 * |q - q'| * X / rbjMargin sr fc q ^ 2 := by
  have hα := h.alphaQ_pos
  have hα' : 0 < alphaQ sr fc q' := (show ValidParams sr fc q' from ⟨h.1, h.2.1, by linarith⟩).alphaQ_pos
  have hd := alphaQ_near h h5 h5'
  have hpm := rbj_poleMargin h
  have c1 := abs_le.mp (Real.abs_cos_le_one (angle sr fc))
  have hX : 0 ≤ X := (abs_nonneg _).trans (hx 0)
  have e1 : |-2 * Real.cos (angle sr fc)| ≤ 2 := by rw [abs_le]; constructor <;> linarith
  generalize alphaQ sr fc q = α at *
  generalize alphaQ sr fc q' = α' at *
  have ha : 0 < 1 + α := by linarith
  have ha' : 0 < 1 + α' := by linarith
  have hp : 1 ≤ (1 + α') * (1 + α) := by nlinarith
  have near : ∀ {t : ℝ}, |t| ≤ 2 → |t / (1 + α') - t / (1 + α)| ≤ 22 / 10 * |q - q'| := by
    intro t ht
    rw [div_sub_div _ _ ha'.ne' ha.ne', show t * (1 + α) - (1 + α') * t = t * (α - α') by ring, abs_div, abs_mul,
      abs_of_pos (show 0 < (1 + α') * (1 + α) by linarith), div_le_iff₀ (by linarith)]
    have := mul_le_mul ht hd (abs_nonneg _) (by norm_num)
    have := mul_le_mul_of_nonneg_left hp (show 0 ≤ 22 / 10 * |q - q'| by positivity)
    linarith
  have near2 : |(1 - α') / (1 + α') - (1 - α) / (1 + α)| ≤ 22 / 10 * |q - q'| := by
    have := near (t := 2) (by norm_num)
    rw [show (1 - α') / (1 + α') - (1 - α) / (1 + α) = 2 / (1 + α') - 2 / (1 + α) by field_simp; ring]
    exact this
  have := SolvesDiff.close (S := 4) hpm (E := 22 / 10 * |q - q'|) (by linarith [abs_nonneg (q - q')]) (near l0) (near l1) (near l2) (near e1) near2 (by
    simp only [abs_div, abs_of_pos ha]
    rw [← add_div, ← add_div, div_le_iff₀ ha]; linarith) hx hy hz n
  refine this.trans (div_le_div_of_nonneg_right ?_ (by positivity))
  have := mul_nonneg (abs_nonneg (q - q')) hX
  linarith

end

theorem GainAtMost.le {G' : ℝ} (h : GainAtMost b r G) (hG : G ≤ G') : GainAtMost b r G' :=
  ⟨h.1, h.2.1, fun x x' y y' D hy hy' hx n => (h.2.2 x x' y y' D hy hy' hx n).trans
    (mul_le_mul_of_nonneg_right hG ((abs_nonneg _).trans (hx 0)))⟩

theorem Follows.le {E' : ℝ} (h : Follows (L := L) b s r X E) (hE : E ≤ E') : Follows (L := L) b s r X E' := by
  intro x hx
  obtain ⟨y, z, hy, hz, h⟩ := h x hx
  exact ⟨y, z, hy, hz, fun n => ⟨(h n).1, (h n).2.trans hE⟩⟩

theorem Tracks.follows_near {τ' : Type} [Processor τ' ℝ] {r' : τ'} {D : ℝ} (h : Tracks (L := L) s r X E) (ht : ∀ x : ℕ → ℝ, ∃ z, Responds b r' x z)
    (hd : ∀ x y z : ℕ → ℝ, (∀ n, |x n| ≤ X) → Responds b r x y → Responds b r' x z → ∀ n, |z n - y n| ≤ D) : Follows b s r' X (E + D) := by
  intro x hx
  obtain ⟨y, hy⟩ := h.1 b x
  obtain ⟨z, hz⟩ := h.2.1 b fun n => (x n).toReal
  obtain ⟨w, hw⟩ := ht fun n => (x n).toReal
  refine ⟨y, w, hy, hw, fun n => ?_⟩
  obtain ⟨h1, h2⟩ := h.2.2 b x y z hx hy hz n
  refine ⟨h1, ?_⟩
  have h3 := hd _ z w (fun n => (hx n).2) hz hw n
  rw [abs_sub_comm] at h3
  have := abs_add_le ((y n).toReal - z n) (z n - w n)
  rw [sub_add_sub_cancel] at this
  linarith

/-- **C112.** A filter followed by a peak meter, from a cleared meter: the reading is off by at most the filter's own error plus the meter's. -/
theorem C112_metered {g : ℝ} {d : PeakEnvDetector (Fl L)} (hs : Tracks (L := L) s r X E) (hG : GainAtMost b r G) (hg : g < 1)
    (ha : d.attack_gain.Gain g) (hr : d.release_gain.Gain g) (hX : 0 ≤ X) (hov : 2 * (G * X + E) ≤ 2 ^ f.emax) (x : ℕ → Fl L) (hx : ∀ n, (x n).Within X) :
    ∃ y v z w, Responds b s x y ∧ Responds b d.clear y v ∧ Responds b r (fun n => (x n).toReal) z ∧ Responds b d.exact.clear z w ∧
      ∀ n, (v n).Finite ∧ |(v n).toReal - w n| ≤ E + 6 * (f.u * (G * X + E) + f.tiny) / (1 - g) := by
  have hE := (hs.follows b).nonneg hX
  have h0 := hG.nonneg
  have e : d.clear.exact = d.exact.clear := by
    show PeakEnvDetector.mk _ _ (zero : Fl L).toReal = _
    rw [zero_toReal]; rfl
  have k := (C74_peak (s := d.clear) (X := G * X + E) hg ha hr ⟨zero_finite, by rw [show d.clear.envelope = zero from rfl, zero_toReal]; simp; positivity⟩ hov).follows b
  rw [e] at k
  have hS : Suits b [(twin s r, (E, G)), (twin d.clear d.exact.clear, (6 * (f.u * (G * X + E) + f.tiny) / (1 - g), 1))] X :=
    ⟨hs.follows b, hG, k, (C112_gain_detectors b).2.1 d.exact ⟨ha.2.1, ha.2.2.trans hg.le⟩ ⟨hr.2.1, hr.2.2.trans hg.le⟩, trivial⟩
  obtain ⟨y, w, ⟨u, hu, y', hy, rfl⟩, ⟨w1, hw1, w2, hw2, rfl⟩, e1⟩ := C112_chain hS x hx
  refine ⟨u, y, w1, w, hu, hy, hw1, hw2, fun n => ⟨(e1 n).1, (e1 n).2.trans (le_of_eq ?_)⟩⟩
  simp [accumulated]

/-- The conditions: a one-pole smoother and a meter, both with gain 1/2, in single precision. -/
example {L : Libm binary32} (b : Build) : ∃ (s : OnePole (Fl L)) (d : PeakEnvDetector (Fl L)), Tracks s s.exact 1 (1793 * 2 ^ (-24 : ℤ)) ∧ GainAtMost b s.exact 1 ∧
    d.attack_gain.Gain (1 / 2) ∧ d.release_gain.Gain (1 / 2) ∧ 2 * (1 * 1 + 1793 * 2 ^ (-24 : ℤ)) ≤ (2 : ℝ) ^ binary32.emax := by
  have h1 : (1 / 2 : ℝ) = 2 ^ (-1 : ℤ) := by norm_num
  obtain ⟨v, hv, e⟩ := Fl.exists_of_isRep L (v := 1 / 2) (by rw [h1]; exact isRep_two_zpow (by decide)) (by unfold Fmt.lim; norm_num [binary32])
  have hg : v.Gain (1 / 2) := ⟨hv, by rw [e]; norm_num, e.le⟩
  refine ⟨⟨zero, v, neg v⟩, ⟨v, v, zero⟩, ?_, ?_, hg, hg, by norm_num [binary32]⟩
  · have hQ : errGain (|v.toReal| + |(neg v).toReal|) (1 / 2) 0 = 4 := by
      unfold errGain; rw [neg_toReal, e]; norm_num [abs_of_pos]
    have key := C73_onePole (s := ⟨zero, v, neg v⟩) (X := 1) (p := 1 / 2) hv (neg_finite.mpr hv) ⟨Fl.zero_finite, by simp⟩
      ⟨by rw [neg_toReal, e]; norm_num, by simp, by norm_num, by simp⟩
      (by rw [hQ]; exact ⟨by norm_num [binary32], by simp only [Fmt.tiny, binary32]; norm_num⟩)
    rw [hQ] at key
    refine key.le ?_
    simp only [errBound, Fmt.u, Fmt.tiny, binary32]
    norm_num
  · have e2 : OnePole.exact ⟨zero, v, neg v⟩ = OnePole.clear ⟨0, 1 / 2, -(1 / 2)⟩ := by
      unfold OnePole.exact; rw [neg_toReal, zero_toReal, e]; rfl
    rw [e2]
    refine C112_gain_filter ((C30_cleared_solve_difference_equation.1 ⟨0, 1 / 2, -(1 / 2)⟩).isConvolution b) ?_
    have := (C107_filters b).2.2.1 ⟨0, 1 / 2, -(1 / 2)⟩ (by norm_num [abs_of_pos])
    convert this using 1
    norm_num [abs_of_pos]

/-! ## The crossover of C95 in f64 -/

section
variable {L : Libm binary64} {sr fc q : Fl L} (hL : AccurateTrig L 2) (hsr : sr.Finite) (hfc : fc.Finite) (hq : q.Finite)
  (h1 : 1 ≤ sr.toReal) (h2 : sr.toReal ≤ 2 ^ 100) (h3 : sr.toReal / 16 ≤ fc.toReal) (h4 : fc.toReal ≤ 7 / 16 * sr.toReal)
  (h5 : |q.toReal - 1 / √2| ≤ 1 / 2 ^ 53)
include hL hsr hfc hq h1 h2 h3 h4 h5

theorem crossover_stages {X : ℝ} (hX1 : 1 ≤ X) (hX2 : X ≤ 1000) (b : Build) :
    (∀ (s : LowPass (Fl L)) (r : LowPass ℝ), Follows b (s.setCoefficients sr fc q) (r.setCoefficients sr.toReal fc.toReal (1 / √2)) X (X / 10 ^ 8) ∧
      GainAtMost b (r.setCoefficients sr.toReal fc.toReal (1 / √2)) 178) ∧
    (∀ (s : HighPass (Fl L)) (r : HighPass ℝ), Follows b (s.setCoefficients sr fc q) (r.setCoefficients sr.toReal fc.toReal (1 / √2)) X (X / 10 ^ 8) ∧
      GainAtMost b (r.setCoefficients sr.toReal fc.toReal (1 / √2)) 178) := by
  have hs2 : √2 ^ 2 = 2 := Real.sq_sqrt (by norm_num)
  have hs0 : 0 < √2 := by positivity
  have hlo : 1.4142 ≤ √2 := Real.le_sqrt_of_sq_le (by norm_num)
  have hhi : √2 ≤ 1.41422 := (Real.sqrt_le_left (by norm_num)).mpr (by norm_num)
  have q1 : 0.70709 ≤ 1 / √2 := by rw [le_div_iff₀ hs0]; linarith
  have q2 : 1 / √2 ≤ 0.70713 := by rw [div_le_iff₀ hs0]; linarith
  have h5' := abs_le.mp h5
  have hε : (1 : ℝ) / 2 ^ 53 ≤ 1 / 10 ^ 6 := by norm_num
  norm_num only at hε h5'
  have q3 : 0.707 ≤ q.toReal := by linarith
  have q4 : q.toReal ≤ 0.7072 := by linarith
  have hbig : (2 : ℝ) ^ (150 : ℤ) ≤ 2 ^ binary64.emax := zpow_le_zpow_right₀ one_le_two (by decide)
  have hu : binary64.u = 1 / 2 ^ 53 := rfl
  have ht : binary64.tiny ≤ binary64.u / 1000 := by
    have : binary64.tiny ≤ (2 : ℝ) ^ (-100 : ℤ) := zpow_le_zpow_right₀ one_le_two (by decide)
    refine this.trans ?_
    rw [hu]; norm_num
  norm_num at hbig
  have hsr0 : 0 < sr.toReal := by linarith
  have hm := rbjMargin_ge (sr := sr.toReal) (fc := fc.toReal) (q := q.toReal) (r := 1 / 16) (Q := 0.7072) hsr0 (by norm_num) (by linarith) (by linarith)
    (by linarith) q4
  have hm' := rbjMargin_ge (sr := sr.toReal) (fc := fc.toReal) (q := 1 / √2) (r := 1 / 16) (Q := 0.7072) hsr0 (by norm_num) (by linarith) (by linarith)
    (by linarith) (by linarith)
  have hm2 := pow_le_pow_left₀ (by positivity) hm 2
  have hv : ValidParams sr.toReal fc.toReal q.toReal := ⟨by linarith, by linarith, by linarith⟩
  have hv' : ValidParams sr.toReal fc.toReal (1 / √2) := ⟨by linarith, by linarith, by positivity⟩
  obtain ⟨hR, hX⟩ := resolved_of (X := X) (r := 1 / 16) (Q := 1) (by rw [hu]; norm_num) (by norm_num [binary64]) hsr hfc hq h1
    (by norm_num at h2; linarith) (by norm_num) (by linarith) (by linarith) (by linarith) (by linarith) (by
      rw [hu] at ht; norm_num at ht ⊢; linarith)
  obtain ⟨t1, t2, -⟩ := C83_tracks hL binary64_roomy (by norm_num) hR (by linarith) hX
  obtain ⟨g1, g2, -⟩ := C112_gain_rbj hv' b
  have hG : 4 / rbjMargin sr.toReal fc.toReal (1 / √2) ≤ 178 := by
    rw [div_le_iff₀ (lt_of_lt_of_le (by norm_num) hm')]
    refine le_trans ?_ (mul_le_mul_of_nonneg_left hm' (by norm_num))
    norm_num
  have hb : rbjBound binary64 2 sr.toReal fc.toReal q.toReal X + 50 * |q.toReal - 1 / √2| * X / rbjMargin sr.toReal fc.toReal q.toReal ^ 2 ≤ X / 10 ^ 8 := by
    have hq1 : 1 / (2 * q.toReal) ≤ 0.71 := by rw [div_le_iff₀ (by linarith)]; linarith
    unfold rbjBound coeffErr
    rw [← add_div, div_le_iff₀ (lt_of_lt_of_le (by norm_num) hm2)]
    have hX0 : 0 ≤ X := by linarith
    have m1 := mul_le_mul_of_nonneg_right hq1 hX0
    have m2 := mul_le_mul_of_nonneg_right h5 hX0
    have m3 := mul_le_mul_of_nonneg_right hm2 hX0
    generalize 1 / (2 * q.toReal) = H at m1 ⊢
    generalize |q.toReal - 1 / √2| = δ at m2 ⊢
    rw [hu] at ht ⊢
    norm_num at ht m3 m2 m1 ⊢
    nlinarith
  have hqm : 18 * |q.toReal - 1 / √2| ≤ rbjMargin sr.toReal fc.toReal q.toReal := by
    norm_num at hm h5 ⊢
    linarith
  have c1 := abs_le.mp (Real.abs_cos_le_one (angle sr.toReal fc.toReal))
  refine ⟨fun s r => ⟨?_, (g1 r).le hG⟩, fun s r => ⟨?_, (g2 r).le hG⟩⟩
  · have l0 := (abs_of_nonneg (show 0 ≤ (1 - Real.cos (angle sr.toReal fc.toReal)) / 2 by linarith))
    have l1 := (abs_of_nonneg (show 0 ≤ 1 - Real.cos (angle sr.toReal fc.toReal) by linarith))
    refine Follows.le ((t1 s r).follows_near (b := b) (g1 r).1 fun x y z hx hy hz => rbj_q_near (q := q.toReal) (q' := 1 / √2) hv (by linarith) (by linarith)
      hqm (by rw [l0]; linarith) (by rw [l1]; linarith) (by rw [l0]; linarith) (by rw [l0, l1]; linarith) hx
      ((r.implements _ _ _ b _ _).mp hy) ((r.implements _ _ _ b _ _).mp hz)) hb
  · have l0 := (abs_of_nonneg (show 0 ≤ (1 + Real.cos (angle sr.toReal fc.toReal)) / 2 by linarith))
    have l1 := (abs_of_nonpos (show -1 - Real.cos (angle sr.toReal fc.toReal) ≤ 0 by linarith))
    refine Follows.le ((t2 s r).follows_near (b := b) (g2 r).1 fun x y z hx hy hz => rbj_q_near (q := q.toReal) (q' := 1 / √2) hv (by linarith) (by linarith)
      hqm (by rw [l0]; linarith) (by rw [l1]; linarith) (by rw [l0]; linarith) (by rw [l0, l1]; linarith) hx
      ((r.implements _ _ _ b _ _).mp hy) ((r.implements _ _ _ b _ _).mp hz)) hb

/-- **C112.** The fourth-order crossover of C95 in f64: two low-pass filters in series, two high-pass filters in series, `q` the
number nearest to `1/√2`. The two branches, added in f64, stay within 0.00001 of the output of the exact all-pass filter,
for ever. -/
theorem C112_crossover_f64 (l l' : LowPass (Fl L)) (g g' : HighPass (Fl L)) (a : AllPass ℝ) (b : Build) (x : ℕ → Fl L) (hx : ∀ n, (x n).Within 1) :
    ∃ (u y t z : ℕ → Fl L) (v : ℕ → ℝ), Responds b (l.setCoefficients sr fc q) x u ∧ Responds b (l'.setCoefficients sr fc q) u y ∧
      Responds b (g.setCoefficients sr fc q) x t ∧ Responds b (g'.setCoefficients sr fc q) t z ∧
      Responds b (a.setCoefficients sr.toReal fc.toReal (1 / √2)) (fun n => (x n).toReal) v ∧
      ∀ n, (y n +. z n).Finite ∧ |(y n +. z n).toReal - v n| ≤ 1 / 10 ^ 5 := by
  obtain ⟨a1, a2⟩ := crossover_stages hL hsr hfc hq h1 h2 h3 h4 h5 le_rfl (by norm_num) b
  obtain ⟨b1, b2⟩ := crossover_stages hL hsr hfc hq h1 h2 h3 h4 h5 (X := 178 * 1 + 1 / 10 ^ 8) (by norm_num) (by norm_num) b
  have k1 : Suits b [(twin (l.setCoefficients sr fc q) ((LowPass.new : LowPass ℝ).setCoefficients sr.toReal fc.toReal (1 / √2)), (1 / 10 ^ 8, 178)),
      (twin (l'.setCoefficients sr fc q) ((LowPass.new : LowPass ℝ).setCoefficients sr.toReal fc.toReal (1 / √2)), ((178 * 1 + 1 / 10 ^ 8) / 10 ^ 8, 178))] 1 :=
    ⟨(a1 l .new).1, (a1 l .new).2, (b1 l' .new).1, (b1 l' .new).2, trivial⟩
  have k2 : Suits b [(twin (g.setCoefficients sr fc q) ((HighPass.new : HighPass ℝ).setCoefficients sr.toReal fc.toReal (1 / √2)), (1 / 10 ^ 8, 178)),
      (twin (g'.setCoefficients sr fc q) ((HighPass.new : HighPass ℝ).setCoefficients sr.toReal fc.toReal (1 / √2)), ((178 * 1 + 1 / 10 ^ 8) / 10 ^ 8, 178))] 1 :=
    ⟨(a2 g .new).1, (a2 g .new).2, (b2 g' .new).1, (b2 g' .new).2, trivial⟩
  obtain ⟨y, w, ⟨u, hu, y', hy, rfl⟩, ⟨w1, hw1, w2, hw2, rfl⟩, e1⟩ := C112_chain k1 x hx
  obtain ⟨z, p, ⟨t, ht, z', hz, rfl⟩, ⟨p1, hp1, p2, hp2, rfl⟩, e2⟩ := C112_chain k2 x hx
  obtain ⟨Y, Z, v, ⟨c1, hc1, c2, hc2, rfl⟩, ⟨d1, hd1, d2, hd2, rfl⟩, hv, hsum⟩ := C95_crossover (f := fc.toReal) (sr := sr.toReal) (by linarith) (by linarith)
    (LowPass.new : LowPass ℝ) .new (HighPass.new : HighPass ℝ) .new a b (fun n => (x n).toReal)
  refine ⟨u, y, t, z, v, hu, hy, ht, hz, hv, fun n => ?_⟩
  have f1 : c1 = w1 := hc1.unique hw1
  subst f1
  have f2 : w = Y := hw2.unique hc2
  have f3 : d1 = p1 := hd1.unique hp1
  subst f3
  have f4 : p = Z := hp2.unique hd2
  subst f2 f4
  have l1 : |w n| ≤ 178 * (178 * 1) := (a1 l' .new).2.level hc2 (fun n => (a1 l .new).2.level hc1 (fun n => (hx n).2) n) n
  have l2 : |p n| ≤ 178 * (178 * 1) := (a2 g' .new).2.level hd2 (fun n => (a2 g .new).2.level hd1 (fun n => (hx n).2) n) n
  have hbig : (2 : ℝ) ^ (103 : ℤ) ≤ 2 ^ binary64.emax := zpow_le_zpow_right₀ one_le_two (by decide)
  have hu : binary64.u = 1 / 2 ^ 53 := rfl
  have ht : binary64.tiny ≤ (2 : ℝ) ^ (-100 : ℤ) := zpow_le_zpow_right₀ one_le_two (by decide)
  have e1 : Approx (y n) (w n) (36 / 10 ^ 7) := ⟨(e1 n).1, (e1 n).2.trans (by norm_num [accumulated])⟩
  have e2 : Approx (z n) (p n) (36 / 10 ^ 7) := ⟨(e2 n).1, (e2 n).2.trans (by norm_num [accumulated])⟩
  rw [← hsum]
  norm_num at hbig ht
  refine e1.add e2 (B := 70000) ?_ (by linarith) ?_
  · have := abs_add_le (w n) (p n); linarith
  · rw [hu]; norm_num; linarith

end

/-- The conditions of `C112_crossover_f64`: 48 kHz, 12 kHz, `q` the number nearest to `1/√2`. -/
example : ∃ (L : Libm binary64) (sr fc q : Fl L), AccurateTrig L 2 ∧ sr.Finite ∧ fc.Finite ∧ q.Finite ∧ sr.toReal = 48000 ∧
    fc.toReal = 12000 ∧ |q.toReal - 1 / √2| ≤ 1 / 2 ^ 53 := by
  let L : Libm binary64 :=
    { exp := id, cos := fun x => FP.ofReal binary64 false (Real.cos x.toReal),
      sin := fun x => FP.ofReal binary64 false (Real.sin x.toReal), log10 := id, powf := fun x _ => x }
  have hl : ∀ v : ℝ, |v| ≤ 2 ^ 100 → |v| < binary64.lim := by
    intro v h
    have : (2 : ℝ) ^ (101 : ℤ) ≤ binary64.lim := zpow_le_zpow_right₀ one_le_two (by decide)
    norm_num at h this ⊢
    linarith
  obtain ⟨a, ha⟩ := exists_of_isRep L (v := 48000) (by exact_mod_cast isRep_nat (f := binary64) (n := 48000) (by norm_num [binary64]))
    (hl _ (by norm_num))
  obtain ⟨c, hc⟩ := exists_of_isRep L (v := 12000) (by exact_mod_cast isRep_nat (f := binary64) (n := 12000) (by norm_num [binary64]))
    (hl _ (by norm_num))
  have h1 : |1 / √2| ≤ 3 / 4 := by
    have : 1.4 ≤ √2 := Real.le_sqrt_of_sq_le (by norm_num)
    rw [abs_of_pos (by positivity), div_le_iff₀ (by positivity)]
    linarith
  have hov : |1 / √2| ≤ (2 : ℝ) ^ binary64.emax := by
    have : (2 : ℝ) ^ (0 : ℤ) ≤ 2 ^ binary64.emax := zpow_le_zpow_right₀ one_le_two (by decide)
    rw [zpow_zero] at this
    linarith
  have hq := FP.ofReal_of_noOvf (f := binary64) (s := false) (x := 1 / √2) (noOvf_of_le_emax hov)
  refine ⟨L, a, c, FP.ofReal binary64 false (1 / √2), .of_rounded binary64_roomy (fun _ _ => rfl) (fun _ _ => rfl), ha.1, hc.1, hq.1, ha.2, hc.2, ?_⟩
  have h2 := abs_rnd_sub_le_u binary64 (1 / √2)
  have e : (Fl.toReal (L := L) (FP.ofReal binary64 false (1 / √2))) = rnd binary64 (1 / √2) := hq.2
  rw [e]
  have hu : binary64.u = 1 / 2 ^ 53 := rfl
  have ht : binary64.tiny ≤ (2 : ℝ) ^ (-100 : ℤ) := zpow_le_zpow_right₀ one_le_two (by decide)
  rw [hu] at h2
  norm_num at ht
  norm_num at h2 h1 ⊢
  linarith

end Rasp
