import Verif.Model.Analysis
import Verif.Lemmas.Fl
import Mathlib.Analysis.Complex.Exponential

/-! # Histories of the analysis types, and ranges -/

namespace Rasp
open FloatOps

/-- States reached from a new integrator by any calls, the processed samples satisfying `P`. -/
inductive LeakyIntegrator.Reach {T : Type} [FloatOps T] (P : T → Prop) : LeakyIntegrator T → Prop
  | new : Reach P LeakyIntegrator.new
  | setAlpha {s} (g : T) : Reach P s → Reach P (s.setAlpha g)
  | process {s} (x : T) : Reach P s → P x → Reach P (s.process x).1
  | clear {s} : Reach P s → Reach P s.clear

/-- States reached from a new detector by any calls, the processed samples satisfying `P`. -/
inductive PeakEnvDetector.Reach {T : Type} [FloatOps T] (P : T → Prop) : PeakEnvDetector T → Prop
  | new : Reach P PeakEnvDetector.new
  | setAttack {s} (n : T) : Reach P s → Reach P (s.setAttack n)
  | setRelease {s} (n : T) : Reach P s → Reach P (s.setRelease n)
  | process {s} (x : T) : Reach P s → P x → Reach P (s.process x).1
  | clear {s} : Reach P s → Reach P s.clear

/-- States reached from a new detector by any calls, the processed samples satisfying `P`. -/
inductive RmsEnvDetector.Reach {T : Type} [FloatOps T] (P : T → Prop) : RmsEnvDetector T → Prop
  | new : Reach P RmsEnvDetector.new
  | setAttack {s} (n : T) : Reach P s → Reach P (s.setAttack n)
  | setRelease {s} (n : T) : Reach P s → Reach P (s.setRelease n)
  | process {s} (x : T) : Reach P s → P x → Reach P (s.process x).1
  | clear {s} : Reach P s → Reach P s.clear

/-- A finite float with a value in `[lo, hi]`. -/
def Fl.In {f : Fmt} {L : Libm f} (lo hi : ℝ) (x : Fl L) : Prop := x.Finite ∧ lo ≤ x.toReal ∧ x.toReal ≤ hi

/-- What C50 needs from the platform's `exp`: arguments with the sign bit set (`-0`, negative numbers, `-∞`) give a value
in `[0, 1]`. -/
def ExpUnit {f : Fmt} (L : Libm f) : Prop :=
  ∀ v : Fl L, ¬ v.IsNaN → isSignNegative v = true → Fl.In 0 1 (exp v)

/-- A library with a correctly rounded `exp` (the other functions do not matter here). Only used to show that `ExpUnit`
is satisfiable. -/
noncomputable def Libm.roundedExp (f : Fmt) : Libm f where
  exp
    | .nan _ => .nan false
    | .inf s => if s then FP.ofReal f false 0 else .inf false
    | .fin s a h => FP.ofReal f false (Real.exp (FP.toReal (.fin s a h)))
  cos x := x
  sin x := x
  log10 x := x
  powf x _ := x

theorem Libm.roundedExp_unit (f : Fmt) : ExpUnit (Libm.roundedExp f) := by
  intro v hv hs
  show FP.Finite (f := f) _ ∧ _
  cases v with
  | nan => exact absurd trivial hv
  | inf s =>
    have : s = true := hs
    subst this
    exact ⟨(FP.ofReal_zero false).1, (FP.ofReal_zero false).2.ge, (FP.ofReal_zero (f := f) false).2.le.trans zero_le_one⟩
  | fin s a h =>
    have : s = true := hs
    subst this
    have h1 : Real.exp (FP.toReal (.fin true a h : FP f)) ≤ 1 := by
      rw [Real.exp_le_one_iff, FP.toReal_fin]
      simpa using h.1
    have h0 := (Real.exp_pos (FP.toReal (.fin true a h : FP f))).le
    have hno : FP.NoOvf f (Real.exp (FP.toReal (.fin true a h : FP f))) :=
      FP.noOvf_of_le (isRep_one f) (FP.one_lt_lim f) (by rwa [abs_of_nonneg h0])
    obtain ⟨h2, h3⟩ := FP.ofReal_of_noOvf (s := false) hno
    refine ⟨h2, ?_, ?_⟩
    · show 0 ≤ FP.toReal (FP.ofReal f false _)
      rw [h3]; exact rnd_nonneg h0
    · show FP.toReal (FP.ofReal f false _) ≤ 1
      rw [h3]; exact rnd_le_of_le (isRep_one f) h1

end Rasp
