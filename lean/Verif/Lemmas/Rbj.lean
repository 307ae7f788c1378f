import Verif.Lemmas.Stream
import Verif.Model.Rbj

/-! # rbj filters answer like the biquad inside -/

namespace Rasp
open FloatOps

theorem responds_iff_wrap {σ τ T : Type} [Processor σ T] [Processor τ T] {b : Build} (w : τ → σ)
    (h : ∀ t x, Processor.process b (w t) x = (Processor.process b t x).map (fun p => (w p.1, p.2))) {t : τ} {x y : ℕ → T} :
    Responds b (w t) x y ↔ Responds b t x y := by
  constructor
  · refine Responds.transfer (fun s t => s = w t) ?_ rfl
    rintro _ t x s' y rfl hp
    rw [h] at hp
    cases hq : Processor.process b t x with
    | error e => rw [hq] at hp; exact absurd hp (by simp [Except.map])
    | ok r =>
      rw [hq] at hp
      have := Prod.mk.inj (Except.ok.inj hp)
      exact ⟨r.1, by rw [← this.2], this.1.symm⟩
  · refine Responds.transfer (fun t s => s = w t) ?_ rfl
    rintro t _ x t' y rfl hp
    exact ⟨w t', by rw [h, hp]; rfl, rfl⟩

variable {T : Type} [FloatOps T] {b : Build} {x y : ℕ → T}

theorem LowPass.responds_iff (s : LowPass T) : Responds b s x y ↔ Responds b s.biquad x y :=
  responds_iff_wrap LowPass.mk (fun _ _ => rfl)
theorem HighPass.responds_iff (s : HighPass T) : Responds b s x y ↔ Responds b s.biquad x y :=
  responds_iff_wrap HighPass.mk (fun _ _ => rfl)
theorem BandPass1.responds_iff (s : BandPass1 T) : Responds b s x y ↔ Responds b s.biquad x y :=
  responds_iff_wrap BandPass1.mk (fun _ _ => rfl)
theorem BandPass2.responds_iff (s : BandPass2 T) : Responds b s x y ↔ Responds b s.biquad x y :=
  responds_iff_wrap BandPass2.mk (fun _ _ => rfl)
theorem BandStop.responds_iff (s : BandStop T) : Responds b s x y ↔ Responds b s.biquad x y :=
  responds_iff_wrap BandStop.mk (fun _ _ => rfl)
theorem AllPass.responds_iff (s : AllPass T) : Responds b s x y ↔ Responds b s.biquad x y :=
  responds_iff_wrap AllPass.mk (fun _ _ => rfl)
theorem Peak.responds_iff (s : Peak T) : Responds b s x y ↔ Responds b s.biquad x y :=
  responds_iff_wrap Peak.mk (fun _ _ => rfl)
theorem LowShelf.responds_iff (s : LowShelf T) : Responds b s x y ↔ Responds b s.biquad x y :=
  responds_iff_wrap LowShelf.mk (fun _ _ => rfl)
theorem HighShelf.responds_iff (s : HighShelf T) : Responds b s x y ↔ Responds b s.biquad x y :=
  responds_iff_wrap HighShelf.mk (fun _ _ => rfl)

end Rasp
