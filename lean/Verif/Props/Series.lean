import Verif.Spec.Series
import Verif.Props.Response
import Verif.Props.Filters
import Mathlib.RingTheory.PowerSeries.Basic
import Mathlib.RingTheory.PowerSeries.NoZeroDivisors
import Mathlib.FieldTheory.KummerExtension
import Mathlib.RingTheory.RootsOfUnity.Complex

/-!
# C95: filters in series and in parallel (exact arithmetic)
-/

namespace Rasp
open Real (cos sin tan pi)
open Filter (Tendsto atTop tendsto_add_atTop_iff_nat)

/-! ## Vanishing inputs -/

section
variable {σ : Type} [Processor σ ℝ] {s : σ} {c0 c1 b0 b1 b2 a1 a2 : ℝ}

theorem ImplementsFrom.vanishes (h : ImplementsFrom s c0 c1 b0 b1 b2 a1 a2) (hs : StablePair a1 a2) : Vanishes s := by
  refine ⟨h.total, fun b x y hr hx => ?_⟩
  rw [h] at hr
  refine second_order_tendsto hs (w := fun n => b0 * x (n + 2) + b1 * x (n + 1) + b2 * x n) (fun n => by rw [hr.tail]; ring) ?_
  have h1 := (tendsto_add_atTop_iff_nat 1).2 hx
  have h2 := (tendsto_add_atTop_iff_nat 2).2 hx
  simpa using ((h2.const_mul b0).add (h1.const_mul b1)).add (hx.const_mul b2)

end

/-- **C95**. Stable filters, from any state: what goes in dies away, so does what comes out. -/
theorem C95_vanishing :
    (∀ s : OnePole ℝ, |s.a1| < 1 → Vanishes s) ∧ (∀ s : OneZero ℝ, Vanishes s) ∧ (∀ s : TwoPole ℝ, StablePair s.a1 s.a2 → Vanishes s) ∧
    (∀ s : TwoZero ℝ, Vanishes s) ∧ (∀ s : Biquad1 ℝ, StablePair s.a1 s.a2 → Vanishes s) ∧ (∀ s : Biquad2 ℝ, StablePair s.a1 s.a2 → Vanishes s) :=
  ⟨fun s h => s.implementsFrom.vanishes (stablePair_one h), fun s => s.implementsFrom.vanishes stablePair_zero,
   fun s h => s.implementsFrom.vanishes h, fun s => s.implementsFrom.vanishes stablePair_zero, fun s h => s.implementsFrom.vanishes h,
   fun s h => s.implementsFrom.vanishes h⟩

/-- **C95**, rbj filters with valid parameters. -/
theorem C95_vanishing_rbj {sr f q S : ℝ} (h : ValidParams sr f q) (h' : ValidShelf sr f S) (db : ℝ) :
    (∀ s : LowPass ℝ, Vanishes (s.setCoefficients sr f q)) ∧ (∀ s : HighPass ℝ, Vanishes (s.setCoefficients sr f q)) ∧
    (∀ s : BandPass1 ℝ, Vanishes (s.setCoefficients sr f q)) ∧ (∀ s : BandPass2 ℝ, Vanishes (s.setCoefficients sr f q)) ∧
    (∀ s : BandStop ℝ, Vanishes (s.setCoefficients sr f q)) ∧ (∀ s : AllPass ℝ, Vanishes (s.setCoefficients sr f q)) ∧
    (∀ s : Peak ℝ, Vanishes (s.setCoefficients sr f db q)) ∧ (∀ s : LowShelf ℝ, Vanishes (s.setCoefficients sr f db S)) ∧
    (∀ s : HighShelf ℝ, Vanishes (s.setCoefficients sr f db S)) :=
  ⟨fun s => (s.implements sr f q).from.vanishes h.stableQ, fun s => (s.implements sr f q).from.vanishes h.stableQ,
   fun s => (s.implements sr f q).from.vanishes h.stableQ, fun s => (s.implements sr f q).from.vanishes h.stableQ,
   fun s => (s.implements sr f q).from.vanishes h.stableQ, fun s => (s.implements sr f q).from.vanishes h.stableQ,
   fun s => (s.implements sr f db q).from.vanishes (h.stablePeak db), fun s => (s.implements sr f db S).from.vanishes (h'.stableLow db),
   fun s => (s.implements sr f db S).from.vanishes (h'.stableHigh db)⟩

/-! ## Chains -/

/-- **C95**. In a chain of linear processors with vanishing memory gains multiply and phases add: if each of them turns a
sinusoid of angle `w` into one multiplied by `‖H‖` and shifted by `arg H`, the chain multiplies by the product and shifts by the sum. -/
theorem C95_series (b : Build) (w : ℝ) : ∀ (ps : List (Stage × ℂ)),
    (∀ p ∈ ps, IsLinear p.1.state ∧ Vanishes p.1.state ∧ SinusoidGain p.1.state w p.2) → ∀ (A φ : ℝ) (x : ℕ → ℝ), SettlesTo x A w φ →
    ∃ z, Through b (ps.map Prod.fst) x z ∧ SettlesTo z (A * (ps.map fun p => ‖p.2‖).prod) w (φ + (ps.map fun p => p.2.arg).sum)
  | [], _, A, φ, x, hx => ⟨x, rfl, by simpa using hx⟩
  | p :: ps, hp, A, φ, x, hx => by
    obtain ⟨hl, hv, hg⟩ := hp p (by simp)
    obtain ⟨y1, h1⟩ := hl.1 b (fun n : ℕ => A * cos (w * n + φ))
    obtain ⟨y2, h2⟩ := hl.1 b (fun n : ℕ => x n - A * cos (w * n + φ))
    have h3 := hl.2 b _ _ _ _ 1 1 h1 h2
    have e : (fun n : ℕ => 1 * (A * cos (w * n + φ)) + 1 * (x n - A * cos (w * n + φ))) = x := by funext n; ring
    rw [e] at h3
    have h4 := (hg A φ).2 b y1 h1
    have h5 := hv.2 b _ _ h2 hx
    have hy : SettlesTo (fun n => 1 * y1 n + 1 * y2 n) (A * ‖p.2‖) w (φ + p.2.arg) := by
      have := h4.add h5
      rw [add_zero] at this
      refine this.congr fun n => ?_
      ring_nf
    obtain ⟨z, hz1, hz2⟩ := C95_series b w ps (fun q hq => hp q (List.mem_cons_of_mem _ hq)) _ _ _ hy
    refine ⟨z, ⟨_, h3, hz1⟩, ?_⟩
    simpa [mul_assoc, add_assoc] using hz2

theorem series_gain' (b : Build) (w : ℝ) (ps : List (Stage × ℂ))
    (h : ∀ p ∈ ps, IsLinear p.1.state ∧ Vanishes p.1.state ∧ SinusoidGain p.1.state w p.2) : ∃ θ : ℝ, ∀ (A φ : ℝ) (x : ℕ → ℝ),
    SettlesTo x A w φ → ∃ z, Through b (ps.map Prod.fst) x z ∧ SettlesTo z (A * (ps.map fun p => ‖p.2‖).prod) w (φ + θ) :=
  ⟨_, C95_series b w ps h⟩

/-- A chain of processors has at most one output. -/
theorem Through.unique {b : Build} : ∀ {ps : List Stage} {x z z' : ℕ → ℝ}, Through b ps x z → Through b ps x z' → z = z'
  | [], _, _, _, h, h' => h.trans h'.symm
  | _ :: _, _, _, _, ⟨_, h1, h2⟩, ⟨_, h1', h2'⟩ => by
    obtain rfl := h1.unique h1'
    exact h2.unique h2'

/-! ## Butterworth filters -/

theorem butterworth_prod {N : ℕ} (hN : 0 < N) (x : ℝ) :
    ∏ k ∈ Finset.range N, (x ^ 2 - 2 * cos ((2 * k + 1) * pi / (2 * N)) * x + 1) = x ^ (2 * N) + 1 := by
  have h2N : 0 < 2 * N := by omega
  have hN' : (N : ℂ) ≠ 0 := by exact_mod_cast hN.ne'
  have hprim := Complex.isPrimitiveRoot_exp (2 * N) h2N.ne'
  set e : ℕ → ℂ := fun j => Complex.exp (((2 * j + 1) * pi / (2 * N) : ℝ) * Complex.I) with he
  have hα : Complex.exp ((pi / (2 * N) : ℝ) * Complex.I) ^ (2 * N) = -1 := by
    rw [← Complex.exp_nat_mul, ← Complex.exp_pi_mul_I]
    congr 1
    push_cast
    field_simp
  have hp := congrArg (Polynomial.eval (x : ℂ)) (X_pow_sub_C_eq_prod hprim h2N hα)
  rw [Polynomial.eval_prod] at hp
  simp only [Polynomial.eval_sub, Polynomial.eval_pow, Polynomial.eval_X, Polynomial.eval_C] at hp
  have hj : ∀ j : ℕ, Complex.exp (2 * pi * Complex.I / ((2 * N : ℕ) : ℂ)) ^ j * Complex.exp ((pi / (2 * N) : ℝ) * Complex.I) = e j := by
    intro j
    rw [he, ← Complex.exp_nat_mul, ← Complex.exp_add]
    congr 1
    push_cast
    field_simp
  simp only [hj] at hp
  have hsplit : ∏ j ∈ Finset.range (2 * N), ((x : ℂ) - e j) = ∏ j ∈ Finset.range N, (((x : ℂ) - e j) * (x - e (2 * N - 1 - j))) := by
    rw [Finset.prod_mul_distrib, two_mul, Finset.prod_range_add]
    congr 1
    rw [← Finset.prod_range_reflect]
    refine Finset.prod_congr rfl fun j hj => ?_
    have := Finset.mem_range.1 hj
    congr 2
    omega
  rw [hsplit] at hp
  have hpair : ∀ j ∈ Finset.range N, ((x : ℂ) - e j) * (x - e (2 * N - 1 - j)) = ((x ^ 2 - 2 * cos ((2 * j + 1) * pi / (2 * N)) * x + 1 : ℝ) : ℂ) := by
    intro j hj
    have hlt := Finset.mem_range.1 hj
    have e2 : e (2 * N - 1 - j) = Complex.exp (-(((2 * j + 1) * pi / (2 * N) : ℝ) * Complex.I)) := by
      have : (((2 * ((2 * N - 1 - j : ℕ) : ℝ) + 1) * pi / (2 * N) : ℝ) : ℂ) * Complex.I =
          -((((2 * j + 1) * pi / (2 * N) : ℝ) : ℂ) * Complex.I) + 2 * pi * Complex.I := by
        have hc : ((2 * N - 1 - j : ℕ) : ℝ) = 2 * N - 1 - j := by
          rw [Nat.cast_sub (by omega), Nat.cast_sub (by omega)]
          push_cast
          ring
        rw [hc]
        push_cast
        field_simp
        ring
      rw [he]
      simp only
      rw [this, Complex.exp_add, Complex.exp_two_pi_mul_I, mul_one]
    rw [e2, he]
    simp only
    set t : ℝ := (2 * j + 1) * pi / (2 * N)
    have h1 : Complex.exp (t * Complex.I) * Complex.exp (-(t * Complex.I)) = 1 := by rw [← Complex.exp_add]; simp
    have h2 : Complex.exp (t * Complex.I) + Complex.exp (-(t * Complex.I)) = 2 * (cos t : ℂ) := by
      rw [Complex.ofReal_cos, Complex.cos]; ring_nf
    push_cast [-Complex.ofReal_cos]
    linear_combination h1 - (x : ℂ) * h2
  rw [Finset.prod_congr rfl hpair, ← Complex.ofReal_prod] at hp
  have : ((x ^ (2 * N) + 1 : ℝ) : ℂ) = ((∏ k ∈ Finset.range N, (x ^ 2 - 2 * cos ((2 * k + 1) * pi / (2 * N)) * x + 1) : ℝ) : ℂ) := by
    rw [← hp]; push_cast; ring
  exact (Complex.ofReal_injective this).symm

/-- Denominator of a second-order section on the imaginary axis. -/
theorem section_norm {q Ω : ℝ} :
    ‖(Complex.I * (Ω : ℂ)) ^ 2 + Complex.I * (Ω : ℂ) / (q : ℂ) + 1‖ ^ 2 = (1 - Ω ^ 2) ^ 2 + (Ω / q) ^ 2 := by
  have : (Complex.I * (Ω : ℂ)) ^ 2 + Complex.I * (Ω : ℂ) / (q : ℂ) + 1 = ((1 - Ω ^ 2 : ℝ) : ℂ) + ((Ω / q : ℝ) : ℂ) * Complex.I := by
    push_cast
    rw [mul_pow, Complex.I_sq]
    ring
  rw [this, ← Complex.normSq_eq_norm_sq, Complex.normSq_add_mul_I]

/-- The quality factors of a Butterworth filter of order `2 N`. -/
theorem butterworth_q_pos {N : ℕ} {k : ℕ} (hk : k < N) : 0 < 1 / (2 * sin ((2 * k + 1) * pi / (4 * N))) := by
  have hN : (0 : ℝ) < N := by exact_mod_cast (by omega : 0 < N)
  have hkN : (k : ℝ) + 1 ≤ N := by exact_mod_cast hk
  have := Real.pi_pos
  have : 0 < sin ((2 * k + 1) * pi / (4 * N)) := by
    apply Real.sin_pos_of_pos_of_lt_pi
    · positivity
    · rw [div_lt_iff₀ (by positivity)]
      nlinarith
  positivity

theorem list_prod_range (N : ℕ) (g : ℕ → ℝ) : ((List.range N).map g).prod = ∏ k ∈ Finset.range N, g k := by
  induction N with
  | zero => simp
  | succ n ih => rw [List.range_succ, List.map_append, List.prod_append, ih, Finset.prod_range_succ]; simp

theorem butterworth_norm {N : ℕ} (hN : 0 < N) (Ω : ℝ) :
    ∏ k ∈ Finset.range N, ‖(Complex.I * (Ω : ℂ)) ^ 2 + Complex.I * (Ω : ℂ) / ((1 / (2 * sin ((2 * k + 1) * pi / (4 * N))) : ℝ) : ℂ) + 1‖ =
      Real.sqrt (1 + Ω ^ (4 * N)) := by
  rw [← Real.sqrt_sq (Finset.prod_nonneg fun k _ => norm_nonneg _), ← Finset.prod_pow]
  congr 1
  rw [show 4 * N = 2 * (2 * N) by ring, pow_mul Ω, add_comm, ← butterworth_prod hN]
  refine Finset.prod_congr rfl fun k _ => ?_
  rw [section_norm]
  have hN' : (N : ℝ) ≠ 0 := by exact_mod_cast hN.ne'
  have e : (2 * (k : ℝ) + 1) * pi / (2 * N) = 2 * ((2 * k + 1) * pi / (4 * N)) := by field_simp; ring
  rw [e, Real.cos_two_mul, div_div_eq_mul_div, div_one, Real.cos_sq']
  ring

variable {sr f q w : ℝ}

/-- `N` low-pass filters in series, the sections of a Butterworth filter of order `2 N`. -/
noncomputable def butterworthLow (s : ℕ → LowPass ℝ) (sr f : ℝ) (N : ℕ) : List Stage :=
  (List.range N).map fun k : ℕ => stage ((s k).setCoefficients sr f (1 / (2 * sin ((2 * k + 1) * pi / (4 * N)))))

/-- `N` high-pass filters in series, the sections of a Butterworth filter of order `2 N`. -/
noncomputable def butterworthHigh (s : ℕ → HighPass ℝ) (sr f : ℝ) (N : ℕ) : List Stage :=
  (List.range N).map fun k : ℕ => stage ((s k).setCoefficients sr f (1 / (2 * sin ((2 * k + 1) * pi / (4 * N)))))

/-- **C95**. Butterworth low-pass filters: `N` `LowPass`es in series with quality factors `1/(2 sin((2k+1)π/(4N)))` have
the maximally flat gain of order `2 N`, at every frequency other than Nyquist, for every input that settles to a sinusoid. -/
theorem C95_butterworth_low (hf : 0 < f) (hsr : f < sr / 2) (hw : cos (w / 2) ≠ 0) {N : ℕ} (hN : 0 < N) (s : ℕ → LowPass ℝ) (b : Build) :
    ∃ θ : ℝ, ∀ (A φ : ℝ) (x : ℕ → ℝ), SettlesTo x A w φ → ∃ z, Through b (butterworthLow s sr f N) x z ∧
      SettlesTo z (A * (1 / Real.sqrt (1 + (tan (w / 2) / tan (angle sr f / 2)) ^ (4 * N)))) w (φ + θ) := by
  obtain ⟨θ, key⟩ := series_gain' b w ((List.range N).map fun k : ℕ =>
    (stage ((s k).setCoefficients sr f (1 / (2 * sin ((2 * k + 1) * pi / (4 * N))))),
      analogLowPass (1 / (2 * sin ((2 * k + 1) * pi / (4 * N)))) (analogPoint sr f w))) (by
    intro p hp
    obtain ⟨k, hk, rfl⟩ := List.mem_map.1 hp
    have hq := butterworth_q_pos (List.mem_range.1 hk)
    have hv : ValidParams sr f (1 / (2 * sin ((2 * k + 1) * pi / (4 * N)))) := ⟨hf, hsr, hq⟩
    exact ⟨((s k).implements sr f _).isLinear, ((s k).implements sr f _).from.vanishes hv.stableQ, (C70_analog_prototypes hv hw).1 (s k)⟩)
  refine ⟨θ, fun A φ x hx => ?_⟩
  obtain ⟨z, h1, h2⟩ := key A φ x hx
  refine ⟨z, ?_, ?_⟩
  · simpa [butterworthLow, Function.comp_def] using h1
  · convert h2 using 2
    rw [List.map_map, list_prod_range]
    simp only [Function.comp_def, analogLowPass, analogPoint, norm_div, norm_one, Finset.prod_div_distrib, Finset.prod_const_one]
    rw [butterworth_norm hN]

/-- **C95**. Butterworth high-pass filters: `N` `HighPass`es in series with quality factors `1/(2 sin((2k+1)π/(4N)))` have
the maximally flat gain of order `2 N`, at every frequency other than Nyquist, for every input that settles to a sinusoid. -/
theorem C95_butterworth_high (hf : 0 < f) (hsr : f < sr / 2) (hw : cos (w / 2) ≠ 0) {N : ℕ} (hN : 0 < N) (s : ℕ → HighPass ℝ) (b : Build) :
    ∃ θ : ℝ, ∀ (A φ : ℝ) (x : ℕ → ℝ), SettlesTo x A w φ → ∃ z, Through b (butterworthHigh s sr f N) x z ∧
      SettlesTo z (A * ((tan (w / 2) / tan (angle sr f / 2)) ^ (2 * N) / Real.sqrt (1 + (tan (w / 2) / tan (angle sr f / 2)) ^ (4 * N)))) w (φ + θ) := by
  obtain ⟨θ, key⟩ := series_gain' b w ((List.range N).map fun k : ℕ =>
    (stage ((s k).setCoefficients sr f (1 / (2 * sin ((2 * k + 1) * pi / (4 * N))))),
      analogHighPass (1 / (2 * sin ((2 * k + 1) * pi / (4 * N)))) (analogPoint sr f w))) (by
    intro p hp
    obtain ⟨k, hk, rfl⟩ := List.mem_map.1 hp
    have hq := butterworth_q_pos (List.mem_range.1 hk)
    have hv : ValidParams sr f (1 / (2 * sin ((2 * k + 1) * pi / (4 * N)))) := ⟨hf, hsr, hq⟩
    exact ⟨((s k).implements sr f _).isLinear, ((s k).implements sr f _).from.vanishes hv.stableQ, (C70_analog_prototypes hv hw).2.1 (s k)⟩)
  refine ⟨θ, fun A φ x hx => ?_⟩
  obtain ⟨z, h1, h2⟩ := key A φ x hx
  refine ⟨z, ?_, ?_⟩
  · simpa [butterworthHigh, Function.comp_def] using h1
  · convert h2 using 2
    rw [List.map_map, list_prod_range]
    simp only [Function.comp_def, analogHighPass, analogPoint, norm_div, norm_pow, norm_mul, Complex.norm_I, one_mul, Complex.norm_real, Finset.prod_div_distrib]
    rw [butterworth_norm hN]
    rw [Finset.prod_const, Finset.card_range, ← pow_mul, Real.norm_eq_abs, Real.norm_eq_abs, ← abs_div, (even_two_mul N).pow_abs]


/-! ## Crossovers -/

section crossover
open PowerSeries

theorem solvesDiff_iff_series {b0 b1 b2 a1 a2 : ℝ} {x y : ℕ → ℝ} : SolvesDiff b0 b1 b2 a1 a2 x y ↔
    (1 + C a1 * X + C a2 * X ^ 2) * mk y = (C b0 + C b1 * X + C b2 * X ^ 2) * mk x := by
  have e : ∀ (c0 c1 c2 : ℝ) (v : ℕ → ℝ) (n : ℕ), coeff n ((C c0 + C c1 * X + C c2 * X ^ 2) * mk v) = c0 * v n + c1 * lag v 1 n + c2 * lag v 2 n := by
    intro c0 c1 c2 v n
    have : (C c0 + C c1 * X + C c2 * X ^ 2) * mk v = C c0 * mk v + C c1 * (X * mk v) + C c2 * (X * (X * mk v)) := by ring
    rw [this, map_add, map_add, coeff_C_mul, coeff_C_mul, coeff_C_mul, coeff_mk]
    rcases n with - | - | n
    · simp
    · simp [coeff_succ_X_mul]
    · simp [coeff_succ_X_mul]
  rw [PowerSeries.ext_iff]
  rw [← map_one (C (R := ℝ))]
  simp only [e]
  refine forall_congr' fun n => ?_
  constructor <;> intro h <;> linarith

/-- The algebra behind the fourth-order crossover. -/
theorem crossover4_alg {R : Type} [CommRing R] (c α r h X : R) (hr : r * (1 + α) = 1) (h2 : c ^ 2 + 2 * α ^ 2 = 1) (hh : 2 * h = 1) :
    (h * (1 - c) * r * (1 + X) ^ 2) ^ 2 + (h * (1 + c) * r * (1 - X) ^ 2) ^ 2 =
      (1 + -2 * c * r * X + (1 - α) * r * X ^ 2) * ((1 - α) * r + -2 * c * r * X + X ^ 2) := by
  have e1 : 1 + -2 * c * r * X + (1 - α) * r * X ^ 2 = r * ((1 + α) - 2 * c * X + (1 - α) * X ^ 2) := by linear_combination -hr
  have e2 : (1 - α) * r + -2 * c * r * X + X ^ 2 = r * ((1 - α) - 2 * c * X + (1 + α) * X ^ 2) := by linear_combination (-X ^ 2) * hr
  rw [e1, e2]
  linear_combination h ^ 2 * r ^ 2 * (2 - 4 * X ^ 2 + 2 * X ^ 4) * h2 +
    (2 * h + 1) * (r * ((1 + α) - 2 * c * X + (1 - α) * X ^ 2)) * (r * ((1 - α) - 2 * c * X + (1 + α) * X ^ 2)) * hh

/-- **C95**. A fourth-order crossover (two low-pass filters in series, two high-pass filters in series, all with the same frequency and
`q = 1/√2`): the two branches add up to the output of the all-pass filter with the same parameters, sample by sample, for
every input. -/
theorem C95_crossover (hf : 0 < f) (hsr : f < sr / 2) (l l' : LowPass ℝ) (g g' : HighPass ℝ) (a : AllPass ℝ) (b : Build) (x : ℕ → ℝ) :
    ∃ y z v, Through b [stage (l.setCoefficients sr f (1 / Real.sqrt 2)), stage (l'.setCoefficients sr f (1 / Real.sqrt 2))] x y ∧
      Through b [stage (g.setCoefficients sr f (1 / Real.sqrt 2)), stage (g'.setCoefficients sr f (1 / Real.sqrt 2))] x z ∧
      Responds b (a.setCoefficients sr f (1 / Real.sqrt 2)) x v ∧ ∀ n, y n + z n = v n := by
  have hq : (0 : ℝ) < 1 / Real.sqrt 2 := by positivity
  have hv : ValidParams sr f (1 / Real.sqrt 2) := ⟨hf, hsr, hq⟩
  have hd := hv.den
  have hs2 : Real.sqrt 2 ^ 2 = 2 := Real.sq_sqrt (by norm_num)
  obtain ⟨u, hu⟩ := (l.implements sr f (1 / Real.sqrt 2)).from.total b x
  obtain ⟨y, hy⟩ := (l'.implements sr f (1 / Real.sqrt 2)).from.total b u
  obtain ⟨t, ht⟩ := (g.implements sr f (1 / Real.sqrt 2)).from.total b x
  obtain ⟨z, hz⟩ := (g'.implements sr f (1 / Real.sqrt 2)).from.total b t
  refine ⟨y, z, fun n => y n + z n, ⟨u, hu, y, hy, rfl⟩, ⟨t, ht, z, hz, rfl⟩, ?_, fun n => rfl⟩
  rw [l.implements sr f _, solvesDiff_iff_series] at hu
  rw [l'.implements sr f _, solvesDiff_iff_series] at hy
  rw [g.implements sr f _, solvesDiff_iff_series] at ht
  rw [g'.implements sr f _, solvesDiff_iff_series] at hz
  rw [a.implements sr f _, solvesDiff_iff_series]
  have hα2 : cos (angle sr f) ^ 2 + 2 * alphaQ sr f (1 / Real.sqrt 2) ^ 2 = 1 := by
    have e : alphaQ sr f (1 / Real.sqrt 2) = sin (angle sr f) / (2 * (1 / Real.sqrt 2)) := rfl
    have hsc := Real.sin_sq_add_cos_sq (angle sr f)
    rw [e, div_pow, mul_pow, div_pow, hs2]
    linear_combination hsc
  set α := alphaQ sr f (1 / Real.sqrt 2)
  set c := cos (angle sr f)
  have hr : (1 / (1 + α)) * (1 + α) = 1 := by field_simp
  set r := 1 / (1 + α) with hrd
  have C2 : (C (2 : ℝ) : ℝ⟦X⟧) = 2 := map_ofNat C 2
  have hr' : (C r : ℝ⟦X⟧) * (1 + C α) = 1 := by rw [← map_one C, ← map_add, ← map_mul, hr]
  have h2' : (C c : ℝ⟦X⟧) ^ 2 + 2 * C α ^ 2 = 1 := by
    have := congrArg (C (R := ℝ)) hα2
    simpa [C2] using this
  have hh' : (2 : ℝ⟦X⟧) * C (1 / 2) = 1 := by
    have := congrArg (C (R := ℝ)) (show (2 : ℝ) * (1 / 2) = 1 by norm_num)
    rwa [map_mul, map_one, C2] at this
  have key := crossover4_alg (C c) (C α) (C r) (C (1 / 2)) (X : ℝ⟦X⟧) hr' h2' hh'
  have en : ∀ t : ℝ, t / (1 + α) = t * r := fun t => by rw [hrd]; ring
  have eD : (1 + C (-2 * c / (1 + α)) * X + C ((1 - α) / (1 + α)) * X ^ 2 : ℝ⟦X⟧) = 1 + -2 * C c * C r * X + (1 - C α) * C r * X ^ 2 := by
    rw [en, en]; simp [C2]
  have eL : (C ((1 - c) / 2 / (1 + α)) + C ((1 - c) / (1 + α)) * X + C ((1 - c) / 2 / (1 + α)) * X ^ 2 : ℝ⟦X⟧) =
      C (1 / 2) * (1 - C c) * C r * (1 + X) ^ 2 := by
    rw [en, en, show (1 - c) / 2 = 1 / 2 * (1 - c) by ring]
    simp only [map_mul, map_sub, map_one]
    linear_combination (-(1 - C c) * C r * X) * hh'
  have eH : (C ((1 + c) / 2 / (1 + α)) + C ((-1 - c) / (1 + α)) * X + C ((1 + c) / 2 / (1 + α)) * X ^ 2 : ℝ⟦X⟧) =
      C (1 / 2) * (1 + C c) * C r * (1 - X) ^ 2 := by
    rw [en, en, show (1 + c) / 2 = 1 / 2 * (1 + c) by ring, show -1 - c = -(1 + c) by ring]
    simp only [map_mul, map_add, map_neg, map_one]
    linear_combination ((1 + C c) * C r * X) * hh'
  have eA : (C ((1 - α) / (1 + α)) + C (-2 * c / (1 + α)) * X + C ((1 + α) / (1 + α)) * X ^ 2 : ℝ⟦X⟧) =
      (1 - C α) * C r + -2 * C c * C r * X + X ^ 2 := by
    rw [div_self hd, en, en]; simp [C2]
  rw [eD, eL] at hu hy
  rw [eD, eH] at ht hz
  rw [eD, eA]
  have em : (mk fun n => y n + z n : ℝ⟦X⟧) = mk y + mk z := by ext n; simp
  rw [em]
  set D : ℝ⟦X⟧ := 1 + -2 * C c * C r * X + (1 - C α) * C r * X ^ 2
  have hD : D ≠ 0 := by
    intro h0
    have := congrArg constantCoeff h0
    simp [D] at this
  apply mul_left_cancel₀ hD
  linear_combination D * hy + D * hz + C (1 / 2) * (1 - C c) * C r * (1 + X) ^ 2 * hu + C (1 / 2) * (1 + C c) * C r * (1 - X) ^ 2 * ht + mk x * key

/-- **C95**. A second-order crossover (`q = 1/2`): low-pass minus high-pass is the first-order all-pass filter with the pole
`p = cos w0/(1 + sin w0)`, sample by sample, for every input. -/
theorem C95_crossover2 (hf : 0 < f) (hsr : f < sr / 2) (l : LowPass ℝ) (g : HighPass ℝ) (b : Build) (x : ℕ → ℝ) :
    ∃ y z v, Responds b (l.setCoefficients sr f (1 / 2)) x y ∧ Responds b (g.setCoefficients sr f (1 / 2)) x z ∧
      Responds b (Biquad2.new.setCoefficients (-(cos (angle sr f) / (1 + sin (angle sr f)))) 1 0
        (-(cos (angle sr f) / (1 + sin (angle sr f)))) 0) x v ∧ ∀ n, y n - z n = v n := by
  have hv : ValidParams sr f (1 / 2) := ⟨hf, hsr, by norm_num⟩
  have hsin := hv.sin_pos
  have hα : alphaQ sr f (1 / 2) = sin (angle sr f) := by
    have : alphaQ sr f (1 / 2) = sin (angle sr f) / (2 * (1 / 2)) := rfl
    rw [this]; norm_num
  have hsc := Real.sin_sq_add_cos_sq (angle sr f)
  obtain ⟨y, hy⟩ := (l.implements sr f (1 / 2)).from.total b x
  obtain ⟨z, hz⟩ := (g.implements sr f (1 / 2)).from.total b x
  refine ⟨y, z, fun n => y n - z n, hy, hz, ?_, fun n => rfl⟩
  rw [l.implements sr f _, solvesDiff_iff_series, hα] at hy
  rw [g.implements sr f _, solvesDiff_iff_series, hα] at hz
  rw [(C30_new_solve_difference_equation _ _ _ _ _).2.2.2.2.2, solvesDiff_iff_series]
  set c := cos (angle sr f)
  set s := sin (angle sr f)
  have hd : 1 + s ≠ 0 := by linarith
  have e1 : -2 * c / (1 + s) = -(2 * (c / (1 + s))) := by ring
  have e2 : (1 - s) / (1 + s) = (c / (1 + s)) ^ 2 := by field_simp; linear_combination (-1) * hsc
  have e3 : (1 - c) / 2 / (1 + s) - (1 + c) / 2 / (1 + s) = -(c / (1 + s)) := by field_simp; ring
  have e4 : (1 - c) / (1 + s) - (-1 - c) / (1 + s) = 1 + (c / (1 + s)) ^ 2 := by field_simp; linear_combination (-1) * hsc
  rw [e1, e2] at hy hz
  set p := c / (1 + s)
  have C2 : (C (2 : ℝ) : ℝ⟦X⟧) = 2 := map_ofNat C 2
  have e3' := congrArg (C (R := ℝ)) e3
  have e4' := congrArg (C (R := ℝ)) e4
  simp only [map_sub, map_neg, map_add, map_pow, map_one] at e3' e4'
  simp only [map_neg, map_mul, map_pow, C2] at hy hz
  have em : (mk fun n => y n - z n : ℝ⟦X⟧) = mk y - mk z := by ext n; simp
  rw [em]
  simp only [map_neg, map_one, map_zero]
  have hD : (1 - C p * X : ℝ⟦X⟧) ≠ 0 := by
    intro h0
    have := congrArg constantCoeff h0
    simp at this
  apply mul_left_cancel₀ hD
  linear_combination hy - hz + mk x * e3' * (1 + X ^ 2) + mk x * e4' * X

/-- The hypotheses are met: 1 kHz at 48 kHz; the angle of 1 kHz itself is such a `w`, and there the Butterworth gain is `1/√2`
for every `N`; and a sinusoid settles to itself. -/
example : (0 : ℝ) < 1000 ∧ (1000 : ℝ) < 48000 / 2 ∧ cos (angle 48000 1000 / 2) ≠ 0 ∧ tan (angle 48000 1000 / 2) ≠ 0 ∧
    SettlesTo (fun n : ℕ => 3 * cos (1 * n + 2)) 3 1 2 := by
  have hv : ValidParams 48000 1000 1 := ⟨by norm_num, by norm_num, by norm_num⟩
  refine ⟨by norm_num, by norm_num, hv.cos_half, (tan_half_pos hv).ne', ?_⟩
  unfold SettlesTo
  simp

end crossover

end Rasp
