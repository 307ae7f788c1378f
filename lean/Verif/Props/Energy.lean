import Verif.Lemmas.Energy
import Verif.Props.GainRange

/-!
# C82: energy of the rbj filters' output

C71 bounds the gain for sinusoids. Here the input is arbitrary.
-/

namespace Rasp
open FloatOps Filter Finset

/-- At every moment, the samples returned so far have at most `g ^ 2` times the energy of the samples fed so far. -/
def EnergyGainAtMost {σ : Type} [Processor σ ℝ] (s : σ) (g : ℝ) : Prop :=
  ∀ (b : Build) (x : ℕ → ℝ), ∃ y, Responds b s x y ∧ ∀ n, ∑ k ∈ range n, y k ^ 2 ≤ g ^ 2 * ∑ k ∈ range n, x k ^ 2

/-- Every stream of finite energy is answered by one with energy at least `g ^ 2` times that. -/
def EnergyGainAtLeast {σ : Type} [Processor σ ℝ] (s : σ) (g : ℝ) : Prop :=
  ∀ (b : Build) (x : ℕ → ℝ) (X : ℝ), HasSum (fun n => x n ^ 2) X →
    ∃ y Y, Responds b s x y ∧ HasSum (fun n => y n ^ 2) Y ∧ g ^ 2 * X ≤ Y

section
variable {σ : Type} [Processor σ ℝ] {s : σ} {b0 b1 b2 a1 a2 lo hi w : ℝ}

/-- The gain for sinusoids is the magnitude of the frequency response. -/
theorem Implements.norm_freqResponse (h : Implements s b0 b1 b2 a1 a2) (hs : StablePair a1 a2) (h0 : 0 ≤ lo)
    (hg : GainWithin s w lo hi) : lo ≤ ‖freqResponse b0 b1 b2 a1 a2 w‖ ∧ ‖freqResponse b0 b1 b2 a1 a2 w‖ ≤ hi := by
  obtain ⟨g, θ, h1, h2, hc⟩ := hg
  suffices e : ‖freqResponse b0 b1 b2 a1 a2 w‖ = g by rw [e]; exact ⟨h1, h2⟩
  have hf := h.from.frequency hs w
  set u := ‖freqResponse b0 b1 b2 a1 a2 w‖ with hu
  set a := (freqResponse b0 b1 b2 a1 a2 w).arg with ha
  have hd : ∀ φ, Tendsto (fun n : ℕ => u * Real.cos (w * n + φ + a) - g * Real.cos (w * n + φ + θ)) atTop (nhds 0) := by
    intro φ
    obtain ⟨y, hy⟩ := (hc 1 φ).1 ⟨true⟩ _
    have ty := (hc 1 φ).2 _ y hy
    have tz := (hf 1 φ).2 _ y hy
    have := ty.sub tz
    rw [sub_zero] at this
    refine this.congr fun n => ?_
    ring
  have t1 := (hd 0).pow 2
  have t2 := (hd (Real.pi / 2)).pow 2
  have t := t1.add t2
  have hconst : ∀ n : ℕ, (u * Real.cos (w * n + 0 + a) - g * Real.cos (w * n + 0 + θ)) ^ 2 +
      (u * Real.cos (w * n + Real.pi / 2 + a) - g * Real.cos (w * n + Real.pi / 2 + θ)) ^ 2 =
      u ^ 2 + g ^ 2 - 2 * u * g * Real.cos (a - θ) := by
    intro n
    rw [show w * n + Real.pi / 2 + a = (w * n + a) + Real.pi / 2 by ring,
      show w * n + Real.pi / 2 + θ = (w * n + θ) + Real.pi / 2 by ring, Real.cos_add_pi_div_two, Real.cos_add_pi_div_two,
      show a - θ = (w * n + a) - (w * n + θ) by ring, Real.cos_sub, add_zero]
    linear_combination u ^ 2 * Real.sin_sq_add_cos_sq (w * n + a) + g ^ 2 * Real.sin_sq_add_cos_sq (w * n + θ)
  have t' := t.congr hconst
  have h3 := tendsto_nhds_unique t' tendsto_const_nhds
  have h4 := Real.cos_le_one (a - θ)
  have u0 : 0 ≤ u := norm_nonneg _
  have g0 : 0 ≤ g := h0.trans h1
  have h5 : (u - g) ^ 2 ≤ 0 := by nlinarith [mul_nonneg u0 g0]
  have h6 : u - g = 0 := by nlinarith
  linarith

theorem Implements.energy (h : Implements s b0 b1 b2 a1 a2) (hs : StablePair a1 a2) (h0 : 0 ≤ lo)
    (hg : ∀ w, GainWithin s w lo hi) : EnergyGainAtLeast s lo ∧ EnergyGainAtMost s hi := by
  have hH := fun w => h.norm_freqResponse hs h0 (hg w)
  constructor
  · intro b x X hx
    obtain ⟨y, hy⟩ := h.from.total b x
    obtain ⟨Y, hY, h1, -⟩ := ((h b x y).mp hy).energy hs h0 hH hx
    exact ⟨y, Y, hy, hY, h1⟩
  · intro b x
    obtain ⟨y, hy⟩ := h.from.total b x
    exact ⟨y, hy, ((h b x y).mp hy).energy_prefix hs fun w => (hH w).2⟩

end

section
variable {sr f q S : ℝ}

/-- **C82**: energy bounds, with the gains of C71. `AllPass` keeps the energy of every stream. -/
theorem C82_energy (h : ValidParams sr f q) :
    (∀ s : LowPass ℝ, EnergyGainAtMost (s.setCoefficients sr f q) (resonance q)) ∧
    (∀ s : HighPass ℝ, EnergyGainAtMost (s.setCoefficients sr f q) (resonance q)) ∧
    (∀ s : BandPass1 ℝ, EnergyGainAtMost (s.setCoefficients sr f q) q) ∧
    (∀ s : BandPass2 ℝ, EnergyGainAtMost (s.setCoefficients sr f q) 1) ∧
    (∀ s : BandStop ℝ, EnergyGainAtMost (s.setCoefficients sr f q) 1) ∧
    (∀ s : AllPass ℝ, EnergyGainAtLeast (s.setCoefficients sr f q) 1 ∧ EnergyGainAtMost (s.setCoefficients sr f q) 1) ∧
    (∀ (s : Peak ℝ) (db : ℝ), EnergyGainAtLeast (s.setCoefficients sr f db q) (min 1 (dbFactor db)) ∧
      EnergyGainAtMost (s.setCoefficients sr f db q) (max 1 (dbFactor db))) := by
  have hg := C71_gain_range h
  refine ⟨fun s => ?_, fun s => ?_, fun s => ?_, fun s => ?_, fun s => ?_, fun s => ?_, fun s db => ?_⟩
  · exact ((s.implements sr f q).energy h.stableQ le_rfl fun w => (hg w).1 s).2
  · exact ((s.implements sr f q).energy h.stableQ le_rfl fun w => (hg w).2.1 s).2
  · exact ((s.implements sr f q).energy h.stableQ le_rfl fun w => (hg w).2.2.1 s).2
  · exact ((s.implements sr f q).energy h.stableQ le_rfl fun w => (hg w).2.2.2.1 s).2
  · exact ((s.implements sr f q).energy h.stableQ le_rfl fun w => (hg w).2.2.2.2.1 s).2
  · exact (s.implements sr f q).energy h.stableQ zero_le_one fun w => (hg w).2.2.2.2.2.1 s
  · exact (s.implements sr f db q).energy (h.stablePeak db) (le_min zero_le_one (by unfold dbFactor; positivity))
      fun w => (hg w).2.2.2.2.2.2 s db

/-- **C82**, shelves. -/
theorem C82_shelf_energy (h : ValidShelf sr f S) (db : ℝ) :
    (∀ s : LowShelf ℝ, EnergyGainAtLeast (s.setCoefficients sr f db S) (min 1 (dbFactor db)) ∧
      EnergyGainAtMost (s.setCoefficients sr f db S) (max 1 (dbFactor db))) ∧
    (∀ s : HighShelf ℝ, EnergyGainAtLeast (s.setCoefficients sr f db S) (min 1 (dbFactor db)) ∧
      EnergyGainAtMost (s.setCoefficients sr f db S) (max 1 (dbFactor db))) := by
  have hg := fun w => C71_shelf_gain_range h w db
  have h0 : 0 ≤ min 1 (dbFactor db) := le_min zero_le_one (by unfold dbFactor; positivity)
  exact ⟨fun s => (s.implements sr f db S).energy (h.stableLow db) h0 fun w => (hg w).1 s,
    fun s => (s.implements sr f db S).energy (h.stableHigh db) h0 fun w => (hg w).2 s⟩

/-- **C82**, in full for `AllPass`: total energy out is total energy in, and no energy comes out early. -/
theorem C82_allPass_lossless (h : ValidParams sr f q) (s : AllPass ℝ) (b : Build) (x : ℕ → ℝ) (X : ℝ)
    (hx : HasSum (fun n => x n ^ 2) X) : ∃ y, Responds b (s.setCoefficients sr f q) x y ∧ HasSum (fun n => y n ^ 2) X ∧
      ∀ n, ∑ k ∈ range n, y k ^ 2 ≤ ∑ k ∈ range n, x k ^ 2 := by
  obtain ⟨h1, h2⟩ := (C82_energy h).2.2.2.2.2.1 s
  obtain ⟨y, hy, hle⟩ := h2 b x
  obtain ⟨z, Z, hz, hZ, hge⟩ := h1 b x X hx
  have hi := s.implements sr f q
  obtain rfl : y = z := ((hi _ _ _).mp hy).unique ((hi _ _ _).mp hz)
  simp only [one_pow, one_mul] at hle hge
  refine ⟨y, hy, ?_, hle⟩
  have : Z ≤ X := by
    rw [← hZ.tsum_eq]
    exact hZ.summable.tsum_le_of_sum_range_le fun n => (hle n).trans (sum_le_hasSum _ (fun _ _ => sq_nonneg _) hx)
  rwa [le_antisymm this hge] at hZ

/-- **C82**: the band-pass and the band-stop filter share the energy of the input. -/
theorem C82_power_complementary (h : ValidParams sr f q) (p : BandPass2 ℝ) (t : BandStop ℝ) (b : Build) (x : ℕ → ℝ) (X : ℝ)
    (hx : HasSum (fun n => x n ^ 2) X) : ∃ y z, Responds b (p.setCoefficients sr f q) x y ∧
      Responds b (t.setCoefficients sr f q) x z ∧ HasSum (fun n => y n ^ 2 + z n ^ 2) X ∧
      ∀ n, ∑ k ∈ range n, (y k ^ 2 + z k ^ 2) ≤ ∑ k ∈ range n, x k ^ 2 := by
  obtain ⟨yl, yh, y1, y, z, ya, hl, hh, h1, h2, hs, ha, hc⟩ :=
    C44_complementary h LowPass.new HighPass.new BandPass1.new p t AllPass.new b x
  obtain ⟨v, hv, hV, hle⟩ := C82_allPass_lossless h AllPass.new b x X hx
  have hi := (AllPass.new : AllPass ℝ).implements sr f q
  obtain rfl : ya = v := ((hi _ _ _).mp ha).unique ((hi _ _ _).mp hv)
  have e : ∀ n, y n ^ 2 + z n ^ 2 = (1 / 2) * x n ^ 2 + (1 / 2) * ya n ^ 2 := by
    intro n
    obtain ⟨-, e1, e2, -⟩ := hc n
    rw [← e1, ← e2]; ring
  refine ⟨y, z, h2, hs, ?_, fun n => ?_⟩
  · simp only [e]
    have := (hx.mul_left (1 / 2)).add (hV.mul_left (1 / 2))
    rwa [show 1 / 2 * X + 1 / 2 * X = X by ring] at this
  · simp only [e]
    rw [sum_add_distrib, ← mul_sum, ← mul_sum]
    linarith [hle n]

/-- The hypotheses are met, by a stream that is not zero. -/
example : ValidParams 48000 1000 0.7 ∧ HasSum (fun n : ℕ => ((1 / 2 : ℝ) ^ n) ^ 2) (4 / 3) := by
  refine ⟨by unfold ValidParams; norm_num, ?_⟩
  have := hasSum_geometric_of_lt_one (r := (1 / 4 : ℝ)) (by norm_num) (by norm_num)
  convert this using 1
  · funext n; rw [← pow_mul, mul_comm, pow_mul]; norm_num
  · norm_num

end

end Rasp
