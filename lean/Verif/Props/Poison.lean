import Verif.Props.Envelope
import Verif.Props.Leaky

/-!
# C68: non-finite samples in the analysis types
-/

namespace Rasp
open FloatOps
variable {f : Fmt} {L : Libm f}

/-- Every stream has a response from state `s`, and one whose sample `k` satisfies `P` gives NaN from output `k` on,
forever. -/
def PoisonedBy {σ : Type} [Processor σ (Fl L)] (P : Fl L → Prop) (s : σ) : Prop :=
  Total (T := Fl L) s ∧
  ∀ (b : Build) (x y : ℕ → Fl L), Responds b s x y → ∀ k, P (x k) → ∀ n, k ≤ n → (y n).IsNaN

theorem poisoned_of_step {σ : Type} [Processor σ (Fl L)] {P : Fl L → Prop} (I : σ → Prop) (N : σ → Prop)
    (ht : NeverPanics (T := Fl L) σ)
    (hI : ∀ b s x s' y, I s → Processor.process b s x = .ok (s', y) → I s' ∧ (P x ∨ N s → y.IsNaN ∧ N s'))
    {s : σ} (h : I s) : PoisonedBy P s := by
  refine ⟨fun b x => ht.responds b s x, ?_⟩
  rintro b x y ⟨st, h0, hst⟩ k hk n hn
  have key : ∀ n, I (st n) := by
    intro n
    induction n with
    | zero => rw [h0]; exact h
    | succ n ih => exact (hI b _ _ _ _ ih (hst n)).1
  have nan : ∀ n, k ≤ n → (y n).IsNaN ∧ N (st (n + 1)) := by
    intro n hn
    induction n, hn using Nat.le_induction with
    | base => exact (hI b _ _ _ _ (key k) (hst k)).2 (.inl hk)
    | succ n hn ih => exact (hI b _ _ _ _ (key (n + 1)) (hst (n + 1))).2 (.inr ih.2)
  exact (nan n hn).1

/-- **C68.** `LeakyIntegrator`: in every reachable state one non-finite sample makes all later outputs NaN. -/
theorem C68_leaky {s : LeakyIntegrator (Fl L)} (h : LeakyIntegrator.Reach (fun _ => True) s) :
    PoisonedBy (fun x => ¬ x.Finite) s := by
  obtain ⟨h1, h2, -⟩ := C45_alpha_in_range h
  refine poisoned_of_step (fun s => s.alpha.Finite ∧ 0 ≤ s.alpha.toReal) (fun s => s.y_z1.IsNaN)
    (fun _ _ _ => ⟨_, _, rfl⟩) ?_ ⟨h1, h2⟩
  intro b s x s' y hs hp
  obtain ⟨rfl, rfl⟩ := Prod.mk.inj (Except.ok.inj hp)
  refine ⟨hs, fun hc => ?_⟩
  have : (x +. s.alpha *. (s.y_z1 -. x)).IsNaN := by
    rcases hc with hc | hc
    · exact Fl.smooth_not_finite_left hs.2 hs.1 hc
    · exact Fl.smooth_nan_right hc
  exact ⟨this, this⟩

/-- **C68.** `PeakEnvDetector`, likewise. -/
theorem C68_peak (hE : ExpUnit L) {s : PeakEnvDetector (Fl L)} (h : PeakEnvDetector.Reach (fun _ => True) s) :
    PoisonedBy (fun x => ¬ x.Finite) s := by
  obtain ⟨h1, h2⟩ := peak_gains hE h
  refine poisoned_of_step (fun s => Fl.In 0 1 s.attack_gain ∧ Fl.In 0 1 s.release_gain) (fun s => s.envelope.IsNaN)
    (fun _ _ _ => ⟨_, _, rfl⟩) ?_ ⟨h1, h2⟩
  intro b s x s' y hs hp
  obtain ⟨rfl, rfl⟩ := Prod.mk.inj (Except.ok.inj hp)
  refine ⟨hs, fun hc => ?_⟩
  have : ∀ g : Fl L, Fl.In 0 1 g → (abs x +. g *. (s.envelope -. abs x)).IsNaN := by
    intro g hg
    rcases hc with hc | hc
    · exact Fl.smooth_not_finite_left hg.2.1 hg.1 (by rwa [Fl.abs_finite])
    · exact Fl.smooth_nan_right hc
  have h3 : (abs x +. (if lt s.envelope (abs x) then s.attack_gain else s.release_gain) *. (s.envelope -. abs x)).IsNaN := by
    split
    · exact this _ hs.1
    · exact this _ hs.2
  exact ⟨h3, h3⟩

theorem Fl.sq_not_finite {x : Fl L} (h : ¬ x.Finite) : ¬ (x *. x).Finite := Fl.mul_not_finite_right h

theorem Fl.sqrt_nan {x : Fl L} (h : x.IsNaN) : (FloatOps.sqrt x).IsNaN := by
  obtain ⟨s, rfl⟩ := Fl.isNaN_iff.mp h
  trivial

/-- **C68.** `RmsEnvDetector`, likewise, also for finite samples whose square overflows. -/
theorem C68_rms (hE : ExpUnit L) {s : RmsEnvDetector (Fl L)} (h : RmsEnvDetector.Reach (fun _ => True) s) :
    PoisonedBy (fun x => x.Finite → ¬ FP.NoOvf f (x.toReal ^ 2)) s := by
  obtain ⟨h1, h2⟩ := rms_gains hE h
  have step : ∀ (s : RmsEnvDetector (Fl L)) (x : Fl L), Fl.In 0 1 s.attack_gain → Fl.In 0 1 s.release_gain →
      (¬ (x *. x).Finite ∨ s.envelope.IsNaN) → (s.process x).1.envelope.IsNaN := by
    intro s x ha hr hc
    have : ∀ g : Fl L, Fl.In 0 1 g → (x *. x +. g *. (s.envelope -. x *. x)).IsNaN := by
      intro g hg
      rcases hc with hc | hc
      · exact Fl.smooth_not_finite_left hg.2.1 hg.1 hc
      · exact Fl.smooth_nan_right hc
    show (x *. x +. (if lt s.envelope (x *. x) then s.attack_gain else s.release_gain) *. (s.envelope -. x *. x)).IsNaN
    split
    · exact this _ ha
    · exact this _ hr
  refine poisoned_of_step (fun s => Fl.In 0 1 s.attack_gain ∧ Fl.In 0 1 s.release_gain) (fun s => s.envelope.IsNaN)
    (fun _ _ _ => ⟨_, _, rfl⟩) ?_ ⟨h1, h2⟩
  intro b s x s' y hs hp
  obtain ⟨rfl, rfl⟩ := Prod.mk.inj (Except.ok.inj hp)
  refine ⟨hs, fun hc => ?_⟩
  have h3 := step s x hs.1 hs.2 (hc.imp_left fun hov => ?_)
  · exact ⟨Fl.sqrt_nan h3, h3⟩
  · by_cases hx : x.Finite
    · rw [Fl.mul_ovf hx hx (by rw [← pow_two]; exact hov hx)]
      exact Fl.inf_not_finite _
    · exact Fl.sq_not_finite hx

/-- **C68.** `clear` ends it: all three are back at output zero with their gains. -/
theorem C68_clear_recovers (s : LeakyIntegrator (Fl L)) (t : PeakEnvDetector (Fl L)) (u : RmsEnvDetector (Fl L)) :
    (s.clear.lastOut = zero ∧ s.clear.getAlpha = s.getAlpha) ∧
    (t.clear.lastOut = zero ∧ t.clear.getAttackGain = t.getAttackGain ∧ t.clear.getReleaseGain = t.getReleaseGain) ∧
    (u.clear.lastOut = zero ∧ u.clear.getAttackGain = u.getAttackGain ∧ u.clear.getReleaseGain = u.getReleaseGain) :=
  ⟨⟨rfl, rfl⟩, ⟨rfl, rfl, rfl⟩, C05_rms_ieee u, rfl, rfl⟩

/-- A stream with a non-finite sample, in the state a new detector is in. -/
example : ¬ (Fl.inf L true).Finite ∧ PeakEnvDetector.Reach (fun _ => True) (PeakEnvDetector.new : PeakEnvDetector (Fl L)) :=
  ⟨Fl.inf_not_finite true, .new⟩

end Rasp
