import Verif.Lemmas.Stream
import Verif.Lemmas.Res
import Verif.Model.Filters
import Verif.Model.Rbj
import Verif.Model.Analysis
import Verif.Model.Delay
import Verif.Model.LinearDelay

/-!
# C04–C06, C33, C36, C37: output and signal memory

All for an arbitrary float type without laws, i.e. bit for bit, including NaN and infinities.
-/

namespace Rasp
open FloatOps

/-! ## C04 -/

/-- **C04.** After `process` returned `y`, `last_out` returns `y`: every processor of the crate. -/
theorem C04_lastOut_after_process [Target] (D T : Type) [FloatOps D] [FloatOps T] [DelayTime D T] :
    ReportsLastOut (OnePole T) ∧ ReportsLastOut (OneZero T) ∧ ReportsLastOut (TwoPole T) ∧
    ReportsLastOut (TwoZero T) ∧ ReportsLastOut (Biquad1 T) ∧ ReportsLastOut (Biquad2 T) ∧
    ReportsLastOut (LowPass T) ∧ ReportsLastOut (HighPass T) ∧ ReportsLastOut (BandPass1 T) ∧
    ReportsLastOut (BandPass2 T) ∧ ReportsLastOut (BandStop T) ∧ ReportsLastOut (AllPass T) ∧
    ReportsLastOut (Peak T) ∧ ReportsLastOut (LowShelf T) ∧ ReportsLastOut (HighShelf T) ∧
    ReportsLastOut (LeakyIntegrator T) ∧ ReportsLastOut (PeakEnvDetector T) ∧ ReportsLastOut (RmsEnvDetector T) ∧
    ReportsLastOut (Delay T) ∧ ReportsLastOut (LinearDelay D T) := by
  refine ⟨?_, ?_, ?_, ?_, ?_, ?_, ?_, ?_, ?_, ?_, ?_, ?_, ?_, ?_, ?_, ?_, ?_, ?_, ?_, ?_⟩
  case refine_19 =>
    intro b s s' x y h
    simp only [Processor.process, Delay.process, Res.bind_ok, Except.ok.injEq, Prod.mk.injEq] at h
    obtain ⟨_, _, _, _, _, _, _, _, _, _, _, _, rfl, rfl⟩ := h
    rfl
  case refine_20 =>
    intro b s s' x y h
    simp only [Processor.process, LinearDelay.process, Res.bind_ok, Except.ok.injEq, Prod.mk.injEq] at h
    obtain ⟨_, _, _, _, _, _, _, _, _, _, _, _, rfl, rfl⟩ := h
    rfl
  all_goals
    intro b s s' x y h
    simp only [Processor.process, Except.ok.injEq, Prod.ext_iff] at h
    obtain ⟨rfl, rfl⟩ := h
    rfl

/-- **C04**, blocks: after `process_block` whose last sample became `y`, `last_out` returns `y`. -/
theorem C04_lastOut_after_block {σ T : Type} [Processor σ T] (hσ : ReportsLastOut σ) {b : Build} {s s' : σ}
    {xs ys : List T} {y : T} (h : processBlock b s xs = .ok (s', ys, y)) :
    Processor.lastOut s' = y ∧ ys.getLast? = some y := by
  unfold processBlock at h
  rw [Res.bind_ok] at h
  obtain ⟨⟨s1, zs⟩, h1, h2⟩ := h
  cases hl : zs.getLast? with
  | none => simp [hl] at h2
  | some z =>
    simp only [hl, Except.ok.injEq, Prod.mk.injEq] at h2
    obtain ⟨rfl, rfl, rfl⟩ := h2
    obtain ⟨s2, x, hp⟩ := (blockLoop_ok_iff.1 h1).last hl
    exact ⟨hσ _ _ _ _ _ hp, hl⟩

/-- The hypothesis of `C04_lastOut_after_block` is met by an actual block. -/
example : ∃ r, processBlock ⟨true⟩ (Biquad2.new : Biquad2 ℝ) [1, 2, 3] = .ok r := ⟨_, rfl⟩

theorem Delay.setDelay_output [Target] {T : Type} {b : Build} {s s' : Delay T} {d : ℕ} (h : s.setDelay b d = .ok s') :
    s'.output = s.output := by
  simp only [Delay.setDelay, Res.bind_ok] at h
  obtain ⟨m, -, h⟩ := h
  generalize (if d > m then m else d) = t at h
  split_ifs at h
  all_goals
    simp only [Res.bind_ok] at h
  · obtain ⟨r, -, h⟩ := h; cases h; rfl
  · obtain ⟨t, -, r, -, h⟩ := h; cases h; rfl

theorem LinearDelay.setDelay_output [Target] {D T : Type} [FloatOps D] [FloatOps T] [DelayTime D T] {b : Build}
    {s s' : LinearDelay D T} {d : D} (h : s.setDelay b d = .ok s') : s'.output = s.output := by
  simp only [LinearDelay.setDelay, Res.bind_ok] at h
  obtain ⟨m, -, r, -, h⟩ := h
  cases h; rfl

/-- **C04.** Before the first sample, `last_out` is zero (for `RmsEnvDetector` see also `C05_rms_ieee`). -/
theorem C04_lastOut_of_new [Target] (T : Type) [FloatOps T] :
    (Processor.lastOut (OnePole.new : OnePole T) : T) = zero ∧ (Processor.lastOut (OneZero.new : OneZero T) : T) = zero ∧
    (Processor.lastOut (TwoPole.new : TwoPole T) : T) = zero ∧ (Processor.lastOut (TwoZero.new : TwoZero T) : T) = zero ∧
    (Processor.lastOut (Biquad1.new : Biquad1 T) : T) = zero ∧ (Processor.lastOut (Biquad2.new : Biquad2 T) : T) = zero ∧
    (Processor.lastOut (LowPass.new : LowPass T) : T) = zero ∧ (Processor.lastOut (HighPass.new : HighPass T) : T) = zero ∧
    (Processor.lastOut (BandPass1.new : BandPass1 T) : T) = zero ∧
    (Processor.lastOut (BandPass2.new : BandPass2 T) : T) = zero ∧
    (Processor.lastOut (BandStop.new : BandStop T) : T) = zero ∧ (Processor.lastOut (AllPass.new : AllPass T) : T) = zero ∧
    (Processor.lastOut (Peak.new : Peak T) : T) = zero ∧ (Processor.lastOut (LowShelf.new : LowShelf T) : T) = zero ∧
    (Processor.lastOut (HighShelf.new : HighShelf T) : T) = zero ∧
    (Processor.lastOut (LeakyIntegrator.new : LeakyIntegrator T) : T) = zero ∧
    (Processor.lastOut (PeakEnvDetector.new : PeakEnvDetector T) : T) = zero ∧
    (Processor.lastOut (RmsEnvDetector.new : RmsEnvDetector T) : T) = sqrt zero ∧
    ∀ (b : Build) (delay max_delay : ℕ) (s : Delay T), Delay.new b delay max_delay = .ok s →
      (Processor.lastOut s : T) = zero := by
  refine ⟨rfl, rfl, rfl, rfl, rfl, rfl, rfl, rfl, rfl, rfl, rfl, rfl, rfl, rfl, rfl, rfl, rfl, rfl, ?_⟩
  intro b d m s h
  simp only [Delay.new, Res.bind_ok] at h
  obtain ⟨n, -, mem, -, h⟩ := h
  exact Delay.setDelay_output h

/-- **C04.** The same for `LinearDelay`. -/
theorem C04_linearDelay_of_new [Target] {D T : Type} [FloatOps D] [FloatOps T] [DelayTime D T] {b : Build} {delay : D}
    {max_delay : ℕ} {s : LinearDelay D T} (h : LinearDelay.new b delay max_delay = .ok s) :
    (Processor.lastOut s : T) = zero := by
  simp only [LinearDelay.new, Res.bind_ok] at h
  obtain ⟨n, -, mem, -, h⟩ := h
  exact LinearDelay.setDelay_output h

/-! ## C05 -/

/-- `last_out` is zero after `clear`, in every state. -/
def ClearsLastOut (σ : Type) {T : Type} [Processor σ T] [FloatOps T] : Prop :=
  ∀ s : σ, Processor.lastOut (Processor.clear s) = (zero : T)

/-- `clear` leaves `last_out` as it was, in every state. -/
def KeepsLastOut (σ : Type) {T : Type} [Processor σ T] : Prop :=
  ∀ s : σ, Processor.lastOut (Processor.clear s) = (Processor.lastOut s : T)

/-- **C05.** What `clear` does to `last_out`, for every type but `RmsEnvDetector` (which is `C05_rms`, `C05_rms_ieee`):
it becomes zero, except that `OneZero` and `TwoZero` keep it. -/
theorem C05_clear_lastOut [Target] (D T : Type) [FloatOps D] [FloatOps T] [DelayTime D T] :
    ClearsLastOut (OnePole T) ∧ ClearsLastOut (TwoPole T) ∧ ClearsLastOut (Biquad1 T) ∧ ClearsLastOut (Biquad2 T) ∧
    ClearsLastOut (LowPass T) ∧ ClearsLastOut (HighPass T) ∧ ClearsLastOut (BandPass1 T) ∧
    ClearsLastOut (BandPass2 T) ∧ ClearsLastOut (BandStop T) ∧ ClearsLastOut (AllPass T) ∧
    ClearsLastOut (Peak T) ∧ ClearsLastOut (LowShelf T) ∧ ClearsLastOut (HighShelf T) ∧
    ClearsLastOut (LeakyIntegrator T) ∧ ClearsLastOut (PeakEnvDetector T) ∧
    ClearsLastOut (Delay T) ∧ ClearsLastOut (LinearDelay D T) ∧
    KeepsLastOut (OneZero T) ∧ KeepsLastOut (TwoZero T) := by
  refine ⟨?_, ?_, ?_, ?_, ?_, ?_, ?_, ?_, ?_, ?_, ?_, ?_, ?_, ?_, ?_, ?_, ?_, ?_, ?_⟩ <;> exact fun _ => rfl

/-- **C05** for `RmsEnvDetector`: `last_out` is the square root of zero. (`C05_rms_ieee` in Props/Envelope.lean: this
is zero in IEEE arithmetic.) -/
theorem C05_rms {T : Type} [FloatOps T] (s : RmsEnvDetector T) :
    Processor.lastOut (Processor.clear s) = sqrt (zero : T) := rfl

/-- **C05** for `RmsEnvDetector` in exact arithmetic. -/
theorem C05_rms_real : ClearsLastOut (RmsEnvDetector ℝ) := fun _ => by
  rw [C05_rms]; simp

/-- **C05 is false for `OneZero`**: a new filter that processed the sample 1 still reports 1 after `clear`. -/
theorem C05_oneZero_false : ¬ ClearsLastOut (OneZero ℝ) := by
  intro h
  have := h ((OneZero.new : OneZero ℝ).process 1).1
  simp [Processor.lastOut, Processor.clear, OneZero.lastOut, OneZero.clear, OneZero.process, OneZero.new] at this

/-- **C05 is false for `TwoZero`**, in the same way. -/
theorem C05_twoZero_false : ¬ ClearsLastOut (TwoZero ℝ) := by
  intro h
  have := h ((TwoZero.new : TwoZero ℝ).process 1).1
  simp [Processor.lastOut, Processor.clear, TwoZero.lastOut, TwoZero.clear, TwoZero.process, TwoZero.new] at this

/-! ## C06 -/

section C06
variable {T : Type} [FloatOps T]

/-- **C06**, basic filters: whatever the prior state, after `clear` the future is that of a new filter given the
same coefficients. -/
theorem C06_clear_forgets_filters (s1 : OnePole T) (s2 : OneZero T) (s3 : TwoPole T) (s4 : TwoZero T)
    (s5 : Biquad1 T) (s6 : Biquad2 T) :
    SameFuture s1.clear (OnePole.new.setCoefficients s1.b0 s1.a1) ∧
    SameFuture s2.clear (OneZero.new.setCoefficients s2.b0 s2.b1) ∧
    SameFuture s3.clear (TwoPole.new.setCoefficients s3.b0 s3.a1 s3.a2) ∧
    SameFuture s4.clear (TwoZero.new.setCoefficients s4.b0 s4.b1 s4.b2) ∧
    SameFuture s5.clear (Biquad1.new.setCoefficients s5.b0 s5.b1 s5.b2 s5.a1 s5.a2) ∧
    SameFuture s6.clear (Biquad2.new.setCoefficients s6.b0 s6.b1 s6.b2 s6.a1 s6.a2) :=
  ⟨.of_step fun _ _ => rfl, .of_step fun _ _ => rfl, .of_step fun _ _ => rfl, .of_step fun _ _ => rfl,
    .of_step fun _ _ => rfl, .of_step fun _ _ => rfl⟩

/-- **C06**, basic filters: coefficients survive `clear`. -/
theorem C06_clear_keeps_coefficients (s1 : OnePole T) (s2 : OneZero T) (s3 : TwoPole T) (s4 : TwoZero T)
    (s5 : Biquad1 T) (s6 : Biquad2 T) :
    (s1.clear.b0 = s1.b0 ∧ s1.clear.a1 = s1.a1) ∧
    (s2.clear.b0 = s2.b0 ∧ s2.clear.b1 = s2.b1) ∧
    (s3.clear.b0 = s3.b0 ∧ s3.clear.a1 = s3.a1 ∧ s3.clear.a2 = s3.a2) ∧
    (s4.clear.b0 = s4.b0 ∧ s4.clear.b1 = s4.b1 ∧ s4.clear.b2 = s4.b2) ∧
    (s5.clear.b0 = s5.b0 ∧ s5.clear.b1 = s5.b1 ∧ s5.clear.b2 = s5.b2 ∧ s5.clear.a1 = s5.a1 ∧ s5.clear.a2 = s5.a2) ∧
    (s6.clear.b0 = s6.b0 ∧ s6.clear.b1 = s6.b1 ∧ s6.clear.b2 = s6.b2 ∧ s6.clear.a1 = s6.a1 ∧
      s6.clear.a2 = s6.a2) := by
  refine ⟨⟨rfl, rfl⟩, ⟨rfl, rfl⟩, ⟨rfl, rfl, rfl⟩, ⟨rfl, rfl, rfl⟩, ⟨rfl, rfl, rfl, rfl, rfl⟩,
    rfl, rfl, rfl, rfl, rfl⟩

/-- What an rbj filter type must satisfy: given parameters, any stream processed, then `clear`, the future is that
of a new filter given the same parameters. -/
def ClearRestarts {σ π : Type} [Processor σ T] (new : σ) (set : σ → π → σ) : Prop :=
  ∀ (b : Build) (s s' : σ) (p : π) (xs ys : List T), Steps b (set s p) xs ys s' →
    SameFuture (Processor.clear s') (set new p)

omit [FloatOps T] in
/-- Proof principle for `ClearRestarts`: `clear` after `process` is `clear`. -/
theorem clearRestarts_of {σ π : Type} [Processor σ T] {new : σ} {set : σ → π → σ}
    (h1 : ∀ b (s s' : σ) x y, Processor.process b s x = .ok (s', y) → Processor.clear s' = Processor.clear s)
    (h2 : ∀ s p, Processor.clear (set s p) = set new p) : ClearRestarts (T := T) new set := by
  intro b s s' p xs ys h
  have key : ∀ (s s' : σ) (xs ys : List T), Steps b s xs ys s' → Processor.clear s' = Processor.clear s := by
    intro s s' xs ys h
    induction h with
    | nil => rfl
    | cons hp _ ih => rw [ih, h1 _ _ _ _ _ hp]
  exact .of_eq (by rw [key _ _ _ _ h, h2])

/-- **C06**, rbj filters, with parameters `(sample_rate, frequency, q)` or `(sample_rate, frequency, db_gain, q)`. -/
theorem C06_clear_forgets_rbj :
    ClearRestarts (π := T × T × T) (LowPass.new : LowPass T) (fun s p => s.setCoefficients p.1 p.2.1 p.2.2) ∧
    ClearRestarts (π := T × T × T) (HighPass.new : HighPass T) (fun s p => s.setCoefficients p.1 p.2.1 p.2.2) ∧
    ClearRestarts (π := T × T × T) (BandPass1.new : BandPass1 T) (fun s p => s.setCoefficients p.1 p.2.1 p.2.2) ∧
    ClearRestarts (π := T × T × T) (BandPass2.new : BandPass2 T) (fun s p => s.setCoefficients p.1 p.2.1 p.2.2) ∧
    ClearRestarts (π := T × T × T) (BandStop.new : BandStop T) (fun s p => s.setCoefficients p.1 p.2.1 p.2.2) ∧
    ClearRestarts (π := T × T × T) (AllPass.new : AllPass T) (fun s p => s.setCoefficients p.1 p.2.1 p.2.2) ∧
    ClearRestarts (π := T × T × T × T) (Peak.new : Peak T)
      (fun s p => s.setCoefficients p.1 p.2.1 p.2.2.1 p.2.2.2) ∧
    ClearRestarts (π := T × T × T × T) (LowShelf.new : LowShelf T)
      (fun s p => s.setCoefficients p.1 p.2.1 p.2.2.1 p.2.2.2) ∧
    ClearRestarts (π := T × T × T × T) (HighShelf.new : HighShelf T)
      (fun s p => s.setCoefficients p.1 p.2.1 p.2.2.1 p.2.2.2) := by
  refine ⟨?_, ?_, ?_, ?_, ?_, ?_, ?_, ?_, ?_⟩ <;>
  · refine clearRestarts_of (fun b s s' x y h => ?_) (fun _ _ => rfl)
    simp only [Processor.process, Except.ok.injEq, Prod.ext_iff] at h
    obtain ⟨rfl, -⟩ := h
    rfl

/-- **C06**, analysers: after `clear` the object *is* a new one with the same gains. (The gains have no direct
setter for the detectors, so the new object is described by its fields.) -/
theorem C06_clear_forgets_analysers (s1 : LeakyIntegrator T) (s2 : PeakEnvDetector T) (s3 : RmsEnvDetector T) :
    s1.clear = { LeakyIntegrator.new with alpha := s1.getAlpha } ∧
    s2.clear = { PeakEnvDetector.new with
      attack_gain := s2.getAttackGain, release_gain := s2.getReleaseGain } ∧
    s3.clear = { RmsEnvDetector.new with
      attack_gain := s3.getAttackGain, release_gain := s3.getReleaseGain } ∧
    s1.clear.getAlpha = s1.getAlpha ∧
    s2.clear.getAttackGain = s2.getAttackGain ∧ s2.clear.getReleaseGain = s2.getReleaseGain ∧
    s3.clear.getAttackGain = s3.getAttackGain ∧ s3.clear.getReleaseGain = s3.getReleaseGain :=
  ⟨rfl, rfl, rfl, rfl, rfl, rfl, rfl, rfl⟩

/-- What a detector type must satisfy: any setter calls and streams, then `clear`, is a new detector with the same
setter calls. Here for one attack and one release length. -/
theorem C06_clear_restarts_detectors (b : Build) (al rl : T) :
    (∀ (s' : PeakEnvDetector T) xs ys,
      Steps b ((PeakEnvDetector.new.setAttack al).setRelease rl) xs ys s' →
        s'.clear = (PeakEnvDetector.new.setAttack al).setRelease rl) ∧
    (∀ (s' : RmsEnvDetector T) xs ys,
      Steps b ((RmsEnvDetector.new.setAttack al).setRelease rl) xs ys s' →
        s'.clear = (RmsEnvDetector.new.setAttack al).setRelease rl) := by
  constructor
  · intro s' xs ys h
    have key : ∀ (s s' : PeakEnvDetector T) (xs ys : List T), Steps b s xs ys s' → s'.clear = s.clear := by
      intro s s' xs ys h
      induction h with
      | nil => rfl
      | cons hp _ ih =>
        simp only [Processor.process, Except.ok.injEq, Prod.ext_iff] at hp
        rw [ih, ← hp.1]; rfl
    rw [key _ _ _ _ h]
    unfold PeakEnvDetector.setRelease PeakEnvDetector.setAttack
    split <;> split <;> rfl
  · intro s' xs ys h
    have key : ∀ (s s' : RmsEnvDetector T) (xs ys : List T), Steps b s xs ys s' → s'.clear = s.clear := by
      intro s s' xs ys h
      induction h with
      | nil => rfl
      | cons hp _ ih =>
        simp only [Processor.process, Except.ok.injEq, Prod.ext_iff] at hp
        rw [ih, ← hp.1]; rfl
    rw [key _ _ _ _ h]
    unfold RmsEnvDetector.setRelease RmsEnvDetector.setAttack
    split <;> split <;> rfl

/-- The hypothesis of `C06_clear_forgets_rbj` / `C06_clear_restarts_detectors` is met by non-trivial histories. -/
example : ∃ ys s', Steps ⟨true⟩ ((LowPass.new : LowPass ℝ).setCoefficients 44100 1200 1) [1, 2, 3] ys s' :=
  ⟨_, _, .cons rfl (.cons rfl (.cons rfl (.nil _)))⟩

/-! ## C33 -/

/-- **C33** `OneZero`: two filters with the same coefficients and any pasts agree forever after one common sample. -/
theorem C33_oneZero_memory (b : Build) {s t s' t' : OneZero T} (h0 : s.b0 = t.b0) (h1 : s.b1 = t.b1) {u y z : T}
    (hs : Processor.process b s u = .ok (s', y)) (ht : Processor.process b t u = .ok (t', z)) :
    SameFuture s' t' := by
  simp only [Processor.process, OneZero.process, Except.ok.injEq, Prod.mk.injEq] at hs ht
  obtain ⟨rfl, -⟩ := hs
  obtain ⟨rfl, -⟩ := ht
  refine .of_step fun _ x => ?_
  simp only [Processor.process, OneZero.process, h0, h1]

/-- **C33** `TwoZero`: the same after two common samples. -/
theorem C33_twoZero_memory (b : Build) {s t s' t' : TwoZero T} (h0 : s.b0 = t.b0) (h1 : s.b1 = t.b1)
    (h2 : s.b2 = t.b2) {u v : T} {ys zs : List T}
    (hs : Steps b s [u, v] ys s') (ht : Steps b t [u, v] zs t') :
    SameFuture s' t' := by
  cases hs with
  | cons hs1 hs =>
  cases hs with
  | cons hs2 hs =>
  cases hs
  cases ht with
  | cons ht1 ht =>
  cases ht with
  | cons ht2 ht =>
  cases ht
  simp only [Processor.process, TwoZero.process, Except.ok.injEq, Prod.mk.injEq] at hs1 hs2 ht1 ht2
  obtain ⟨rfl, -⟩ := hs1
  obtain ⟨rfl, -⟩ := hs2
  obtain ⟨rfl, -⟩ := ht1
  obtain ⟨rfl, -⟩ := ht2
  refine .of_step fun _ x => ?_
  simp only [Processor.process, TwoZero.process, h0, h1, h2]

/-- **C33**, one sample is not enough for `TwoZero` (so the memory length two is exact). -/
example : ∃ s t : TwoZero ℝ, s.b0 = t.b0 ∧ s.b1 = t.b1 ∧ s.b2 = t.b2 ∧
    ((s.process 0).1.process 0).2 ≠ ((t.process 0).1.process 0).2 :=
  ⟨{ TwoZero.new with b2 := 1, x_z1 := 1 }, { TwoZero.new with b2 := 1 }, rfl, rfl, rfl, by
    simp [TwoZero.process, TwoZero.new]⟩

end C06

/-! ## C36 -/

section C36
variable {T : Type} [FloatOps T]

omit [FloatOps T] in
/-- **C36.** `set_coefficients` of the basic filters keeps `last_out`. -/
theorem C36_setCoefficients_keeps_lastOut (s1 : OnePole T) (s2 : OneZero T) (s3 : TwoPole T) (s4 : TwoZero T)
    (s5 : Biquad1 T) (s6 : Biquad2 T) (b0 b1 b2 a1 a2 : T) :
    (s1.setCoefficients b0 a1).lastOut = s1.lastOut ∧ (s2.setCoefficients b0 b1).lastOut = s2.lastOut ∧
    (s3.setCoefficients b0 a1 a2).lastOut = s3.lastOut ∧ (s4.setCoefficients b0 b1 b2).lastOut = s4.lastOut ∧
    (s5.setCoefficients b0 b1 b2 a1 a2).lastOut = s5.lastOut ∧
    (s6.setCoefficients b0 b1 b2 a1 a2).lastOut = s6.lastOut := ⟨rfl, rfl, rfl, rfl, rfl, rfl⟩

omit [FloatOps T] in
/-- **C36.** The coefficients are exactly the given ones, and nothing else changed: it is assignment of the public
fields. -/
theorem C36_setCoefficients_is_assignment (s1 : OnePole T) (s2 : OneZero T) (s3 : TwoPole T) (s4 : TwoZero T)
    (s5 : Biquad1 T) (s6 : Biquad2 T) (b0 b1 b2 a1 a2 : T) :
    s1.setCoefficients b0 a1 = ⟨s1.y_z1, b0, a1⟩ ∧
    s2.setCoefficients b0 b1 = ⟨s2.x_z1, s2.output, b0, b1⟩ ∧
    s3.setCoefficients b0 a1 a2 = ⟨s3.y_z1, s3.y_z2, b0, a1, a2⟩ ∧
    s4.setCoefficients b0 b1 b2 = ⟨s4.x_z1, s4.x_z2, s4.output, b0, b1, b2⟩ ∧
    s5.setCoefficients b0 b1 b2 a1 a2 = ⟨s5.x_z1, s5.x_z2, s5.y_z1, s5.y_z2, b0, b1, b2, a1, a2⟩ ∧
    s6.setCoefficients b0 b1 b2 a1 a2 = ⟨s6.z1, s6.z2, s6.output, b0, b1, b2, a1, a2⟩ :=
  ⟨rfl, rfl, rfl, rfl, rfl, rfl⟩

omit [FloatOps T] in
/-- **C36**, observably: changing the coefficients and changing them back leaves no trace. -/
theorem C36_setCoefficients_reversible (s1 : OnePole T) (s2 : OneZero T) (s3 : TwoPole T) (s4 : TwoZero T)
    (s5 : Biquad1 T) (s6 : Biquad2 T) (b0 b1 b2 a1 a2 : T) :
    (s1.setCoefficients b0 a1).setCoefficients s1.b0 s1.a1 = s1 ∧
    (s2.setCoefficients b0 b1).setCoefficients s2.b0 s2.b1 = s2 ∧
    (s3.setCoefficients b0 a1 a2).setCoefficients s3.b0 s3.a1 s3.a2 = s3 ∧
    (s4.setCoefficients b0 b1 b2).setCoefficients s4.b0 s4.b1 s4.b2 = s4 ∧
    (s5.setCoefficients b0 b1 b2 a1 a2).setCoefficients s5.b0 s5.b1 s5.b2 s5.a1 s5.a2 = s5 ∧
    (s6.setCoefficients b0 b1 b2 a1 a2).setCoefficients s6.b0 s6.b1 s6.b2 s6.a1 s6.a2 = s6 :=
  ⟨rfl, rfl, rfl, rfl, rfl, rfl⟩

end C36

/-! ## C37 -/

/-- `set` discards everything: the result is that of a new object, its future too, and `last_out` is zero. -/
def SetterRestarts {σ π T : Type} [FloatOps T] [Processor σ T] (new : σ) (set : σ → π → σ) : Prop :=
  ∀ (s : σ) (p : π), SameFuture (set s p) (set new p) ∧ Processor.lastOut (set s p) = (zero : T)

/-- **C37.** `set_coefficients` of every rbj filter, with any parameters, discards earlier samples and parameters. -/
theorem C37_rbj_setCoefficients_restarts (T : Type) [FloatOps T] :
    SetterRestarts (π := T × T × T) (LowPass.new : LowPass T) (fun s p => s.setCoefficients p.1 p.2.1 p.2.2) ∧
    SetterRestarts (π := T × T × T) (HighPass.new : HighPass T) (fun s p => s.setCoefficients p.1 p.2.1 p.2.2) ∧
    SetterRestarts (π := T × T × T) (BandPass1.new : BandPass1 T) (fun s p => s.setCoefficients p.1 p.2.1 p.2.2) ∧
    SetterRestarts (π := T × T × T) (BandPass2.new : BandPass2 T) (fun s p => s.setCoefficients p.1 p.2.1 p.2.2) ∧
    SetterRestarts (π := T × T × T) (BandStop.new : BandStop T) (fun s p => s.setCoefficients p.1 p.2.1 p.2.2) ∧
    SetterRestarts (π := T × T × T) (AllPass.new : AllPass T) (fun s p => s.setCoefficients p.1 p.2.1 p.2.2) ∧
    SetterRestarts (π := T × T × T × T) (Peak.new : Peak T)
      (fun s p => s.setCoefficients p.1 p.2.1 p.2.2.1 p.2.2.2) ∧
    SetterRestarts (π := T × T × T × T) (LowShelf.new : LowShelf T)
      (fun s p => s.setCoefficients p.1 p.2.1 p.2.2.1 p.2.2.2) ∧
    SetterRestarts (π := T × T × T × T) (HighShelf.new : HighShelf T)
      (fun s p => s.setCoefficients p.1 p.2.1 p.2.2.1 p.2.2.2) := by
  refine ⟨?_, ?_, ?_, ?_, ?_, ?_, ?_, ?_, ?_⟩ <;>
    exact fun _ _ => ⟨.of_eq rfl, rfl⟩

/-- Contrast to C36: the earlier output is really discarded (a filter that reported 1 reports 0). -/
example : ∃ s : LowPass ℝ, s.lastOut = 1 ∧ (s.setCoefficients 4 1 1).lastOut = 0 :=
  ⟨⟨{ Biquad2.new with output := 1 }⟩, rfl, rfl⟩

end Rasp
