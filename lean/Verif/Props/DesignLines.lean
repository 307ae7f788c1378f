import Verif.Props.Bands

/-!
# C158, C159: the designed filters in the delay lines of the crate
-/

namespace Rasp
open FloatOps
variable {b : Build}

/-- True of every new line of either kind with room for `m` samples. -/
def NewLines [Target] (b : Build) (m : ℕ) (P : ∀ (σ : Type) [Processor σ ℝ] [TappableDelayLine σ ℝ], σ → Prop) : Prop :=
  (∀ (d : ℕ) (s : Delay ℝ), Delay.new b d m = .ok s → P (Delay ℝ) s) ∧
  (∀ (d : ℝ) (s : LinearDelay ℝ ℝ), LinearDelay.new b d m = .ok s → P (LinearDelay ℝ ℝ) s)

private theorem newLines_of [Target] {m : ℕ} (hm : Allocatable ℝ m) {taps : List (ℝ × ℕ)} (ht : ∀ p ∈ taps, p.2 ≤ m)
    {P : ∀ (σ : Type) [Processor σ ℝ] [TappableDelayLine σ ℝ], σ → Prop}
    (h : ∀ (σ : Type) [Processor σ ℝ] [TappableDelayLine σ ℝ] (s : σ), IsTapFir b taps s → P σ s) : NewLines b m P :=
  ⟨fun _ s hs => h _ s (C155_delay hm ht hs), fun _ s hs => h _ s (C155_linearDelay hm ht hs)⟩

/-- **C158** in a new `Delay` or `LinearDelay` with room for the taps, whatever its own delay: reading the taps of the windowed ideal response never
panics, and every sinusoid comes out delayed by `M` samples with the gain of a nearly ideal low-pass filter. -/
theorem C158_lines [Target] {kind : WindowKind} (hk : kind = .hann ∨ kind = .blackman) {M m : ℕ} (hM : 32 ≤ M) (hn : 2 * M + 1 < usizeMod)
    (hm : Allocatable ℝ m) (hMm : 2 * M ≤ m) {Ω : ℝ} (hΩ : 0 ≤ Ω) : ∃ cs, applyWindow b (idealTaps M Ω) (.shaped kind) = .ok cs ∧
      NewLines b m fun _ _ _ s => ∀ ω, ∃ r,
        (∀ t, 4 * (2 * Real.pi / (2 * M : ℕ)) ≤ t → t ≤ Real.pi → Ω ≤ Real.pi - t → NearlyIdeal Ω t (designRipple (cosineCoefs kind) (2 * M) t) ω r) ∧
        ∀ A φ x, (∀ n : ℕ, x n = A * Real.cos (ω * n + φ)) →
          ∃ y, Gathers b (tapsOf cs) s x y ∧ ∀ n ≥ 2 * M, y n = r * (A * Real.cos (ω * (n - M) + φ)) := by
  obtain ⟨cs, h1, h2, h3⟩ := C158_lowpass (b := b) hk hM hn hΩ
  refine ⟨cs, h1, newLines_of hm (tapsOf_le (cs := cs) (by omega)) ?_⟩
  intro σ _ _ s hs ω
  obtain ⟨r, h4, h5⟩ := h3 σ s hs ω
  exact ⟨r, h4, fun A φ x hx => ⟨_, (hs x _).mpr rfl, h5 A φ x _ hx ((hs x _).mpr rfl)⟩⟩

/-- **C159** in a new `Delay` or `LinearDelay` with room for the taps, whatever its own delay. -/
theorem C159_lines [Target] {kind : WindowKind} (hk : kind = .hann ∨ kind = .blackman) {M m : ℕ} (hM : 32 ≤ M) (hn : 2 * M + 1 < usizeMod)
    (hm : Allocatable ℝ m) (hMm : 2 * M ≤ m) (bands : List (ℝ × ℝ)) : ∃ cs, applyWindow b (bandTaps M bands) (.shaped kind) = .ok cs ∧
      NewLines b m fun _ _ _ s => ∀ ω, ∃ r,
        (∀ t, 4 * (2 * Real.pi / (2 * M : ℕ)) ≤ t → t ≤ Real.pi → EdgesWithin bands t → AwayFromEdges bands t ω →
          |r - bandGain bands ω| ≤ bandSteps bands * designRipple (cosineCoefs kind) (2 * M) t) ∧
        ∀ A φ x, (∀ n : ℕ, x n = A * Real.cos (ω * n + φ)) →
          ∃ y, Gathers b (tapsOf cs) s x y ∧ ∀ n ≥ 2 * M, y n = r * (A * Real.cos (ω * (n - M) + φ)) := by
  obtain ⟨cs, h1, h2, h3⟩ := C159_bands (b := b) hk hM hn bands
  refine ⟨cs, h1, newLines_of hm (tapsOf_le (cs := cs) (by omega)) ?_⟩
  intro σ _ _ s hs ω
  obtain ⟨r, h4, h5⟩ := h3 σ s hs ω
  exact ⟨r, h4, fun A φ x hx => ⟨_, (hs x _).mpr rfl, h5 A φ x _ hx ((hs x _).mpr rfl)⟩⟩

/-- **C159**, crossovers in two new lines of either kind: the two outputs add up to the input `M` samples ago. -/
theorem C159_crossover_lines [Target] (kind : WindowKind) {M m : ℕ} (hM : 1 ≤ M) (hn : 2 * M + 1 < usizeMod) (hm : Allocatable ℝ m) (hMm : 2 * M ≤ m)
    (bands : List (ℝ × ℝ)) : ∃ cs ds, applyWindow b (bandTaps M bands) (.shaped kind) = .ok cs ∧
      applyWindow b (bandTaps M (complementBands bands)) (.shaped kind) = .ok ds ∧
      NewLines b m fun _ _ _ s => NewLines b m fun _ _ _ s' => ∀ x, ∃ y y', Gathers b (tapsOf cs) s x y ∧ Gathers b (tapsOf ds) s' x y' ∧
        ∀ n, y n + y' n = lag x M n := by
  obtain ⟨cs, ds, h1, h2, h3, h4, h5⟩ := C159_crossover (b := b) kind hM hn bands
  refine ⟨cs, ds, h1, h2, newLines_of hm (tapsOf_le (cs := cs) (by omega)) ?_⟩
  intro σ _ _ s hs
  refine newLines_of hm (tapsOf_le (cs := ds) (by omega)) ?_
  intro σ' _ _ s' hs' x
  exact ⟨_, _, (hs x _).mpr rfl, (hs' x _).mpr rfl, h5 σ σ' s s' hs hs' x _ _ ((hs x _).mpr rfl) ((hs' x _).mpr rfl)⟩

/-- There are such lines: of either kind, with room for 64 samples. -/
example [Target] (hm : Allocatable ℝ 64) : (∃ s : Delay ℝ, Delay.new b 0 64 = .ok s) ∧ ∃ s : LinearDelay ℝ ℝ, LinearDelay.new b (1 / 2 : ℝ) 64 = .ok s := by
  obtain ⟨s, hs, -⟩ := C116_delay_gather (b := b) (d := 0) hm [] (by simp) (fun _ => (0 : ℝ))
  obtain ⟨s', hs', -⟩ := C20_new_interpolates (b := b) hm (1 / 2 : ℝ)
  exact ⟨⟨s, hs⟩, ⟨s', hs'⟩⟩

section floating
variable {f : Fmt} {L : Libm f} {k : ℝ}

/-- **C158** in floating point, in a new `Delay` with room for the taps, whatever its own delay: reading the taps never panics, and every sinusoid
comes out as from the exact filter, up to rounding. The example beside `C158_float` meets the hypotheses. -/
theorem C158_float_line [Target] (hf : f.Ordinary) (hL : AccurateCos L k) (hk0 : 0 ≤ k) (hk : (k + 120) * f.u ≤ 1 / 8) {kind : WindowKind}
    (hkind : kind = .hann ∨ kind = .blackman) {M m d : ℕ} (hM : 32 ≤ M) (hn : 2 * M + 1 < usizeMod) (hN : 4 * ((2 * M + 1 : ℕ) * f.u) ≤ 1) {Ω ε : ℝ}
    (hΩ : 0 ≤ Ω) (hΩ1 : Ω ≤ Real.pi) (hε : 1 + ε ≤ 2 ^ (f.emax - 1)) {hs : List (Fl L)} (hl : hs.length = 2 * M + 1)
    (hh : ∀ i (hi : i < hs.length), hs[i].Finite ∧ |hs[i].toReal - idealTap Ω ((i : ℤ) - M)| ≤ ε) {δ W : ℝ} (hδ : δ = (k + 52) * f.u * (1 + ε) + f.tiny + ε)
    (hW : W = (2 * M + 1 : ℕ) * (1 + δ)) (hm : Allocatable (Fl L) m) (hMm : 2 * M ≤ m) :
    ∃ (cs : List (Fl L)) (s : Delay (Fl L)), applyWindow b hs (.shaped kind) = .ok cs ∧ Delay.new b d m = .ok s ∧ ∀ ω, ∃ r,
      (∀ t, 4 * (2 * Real.pi / (2 * M : ℕ)) ≤ t → t ≤ Real.pi → Ω ≤ Real.pi - t → NearlyIdeal Ω t (designRipple (cosineCoefs kind) (2 * M) t) ω r) ∧
      ∀ A φ η x, 0 ≤ A → SampledSine x A ω φ η → 5 * (W * (A + η) + (2 * M + 1 : ℕ) * f.tiny) ≤ 2 ^ f.emax → ∃ y, Gathers b (tapsOf cs) s x y ∧
        ∀ n ≥ 2 * M, (y n).Finite ∧ |(y n).toReal - r * (A * Real.cos (ω * (n - M) + φ))| ≤
          (2 * M + 1 : ℕ) * δ * A + (W * η + 4 * (2 * M + 1 : ℕ) * (f.u * (W * (A + η)) + f.tiny)) := by
  obtain ⟨cs, h1, h2, h3⟩ := C158_float (b := b) hf hL hk0 hk hkind hM hn hN hΩ hΩ1 hε hl hh hδ hW
  obtain ⟨s, hs, -⟩ := C116_delay_gather (b := b) (d := d) hm [] (by simp) (fun _ => (zero : Fl L))
  have ht : IsTapFir b (tapsOf cs) s := C155_delay hm (tapsOf_le (cs := cs) (by omega)) hs
  refine ⟨cs, s, h1, hs, fun ω => ?_⟩
  obtain ⟨r, h4, h5⟩ := h3 _ s ht ω
  exact ⟨r, h4, fun A φ η x hA hx hr => ⟨_, (ht x _).mpr rfl, h5 A φ η x _ hA hx hr ((ht x _).mpr rfl)⟩⟩

/-- **C159** in floating point, in a new `Delay` with room for the taps, whatever its own delay. The example beside `C159_float` meets the
hypotheses. -/
theorem C159_float_line [Target] (hf : f.Ordinary) (hL : AccurateCos L k) (hk0 : 0 ≤ k) (hk : (k + 120) * f.u ≤ 1 / 8) {kind : WindowKind}
    (hkind : kind = .hann ∨ kind = .blackman) {M m d : ℕ} (hM : 32 ≤ M) (hn : 2 * M + 1 < usizeMod) (hN : 4 * ((2 * M + 1 : ℕ) * f.u) ≤ 1)
    {bands : List (ℝ × ℝ)} {B ε : ℝ} (hB : bandTotal bands = B) (hb : ∀ p ∈ bands, 0 ≤ p.2 ∧ p.2 ≤ Real.pi) (hε : B + ε ≤ 2 ^ (f.emax - 1))
    {hs : List (Fl L)} (hl : hs.length = 2 * M + 1)
    (hh : ∀ i (hi : i < hs.length), hs[i].Finite ∧ |hs[i].toReal - bandTap bands ((i : ℤ) - M)| ≤ ε) {δ W : ℝ} (hδ : δ = (k + 52) * f.u * (B + ε) + f.tiny + ε)
    (hW : W = (2 * M + 1 : ℕ) * (B + δ)) (hm : Allocatable (Fl L) m) (hMm : 2 * M ≤ m) :
    ∃ (cs : List (Fl L)) (s : Delay (Fl L)), applyWindow b hs (.shaped kind) = .ok cs ∧ Delay.new b d m = .ok s ∧ ∀ ω, ∃ r,
      (∀ t, 4 * (2 * Real.pi / (2 * M : ℕ)) ≤ t → t ≤ Real.pi → EdgesWithin bands t → AwayFromEdges bands t ω →
        |r - bandGain bands ω| ≤ bandSteps bands * designRipple (cosineCoefs kind) (2 * M) t) ∧
      ∀ A φ η x, 0 ≤ A → SampledSine x A ω φ η → 5 * (W * (A + η) + (2 * M + 1 : ℕ) * f.tiny) ≤ 2 ^ f.emax → ∃ y, Gathers b (tapsOf cs) s x y ∧
        ∀ n ≥ 2 * M, (y n).Finite ∧ |(y n).toReal - r * (A * Real.cos (ω * (n - M) + φ))| ≤
          (2 * M + 1 : ℕ) * δ * A + (W * η + 4 * (2 * M + 1 : ℕ) * (f.u * (W * (A + η)) + f.tiny)) := by
  obtain ⟨cs, h1, h2, h3⟩ := C159_float (b := b) hf hL hk0 hk hkind hM hn hN hB hb hε hl hh hδ hW
  obtain ⟨s, hs, -⟩ := C116_delay_gather (b := b) (d := d) hm [] (by simp) (fun _ => (zero : Fl L))
  have ht : IsTapFir b (tapsOf cs) s := C155_delay hm (tapsOf_le (cs := cs) (by omega)) hs
  refine ⟨cs, s, h1, hs, fun ω => ?_⟩
  obtain ⟨r, h4, h5⟩ := h3 _ s ht ω
  exact ⟨r, h4, fun A φ η x hA hx hr => ⟨_, (ht x _).mpr rfl, h5 A φ η x _ hA hx hr ((ht x _).mpr rfl)⟩⟩

end floating

end Rasp
