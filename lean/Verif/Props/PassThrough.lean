import Verif.Lemmas.Diff
import Verif.Lemmas.Rbj
import Verif.Lemmas.Fl

/-!
# C29: new filters pass the signal through

IEEE arithmetic, every format `f` (binary32 and binary64 among them), every mathematical library `L`.
-/

namespace Rasp
open FloatOps
variable {f : Fmt} {L : Libm f}

/-- Every stream of finite samples comes back, compared with Rust's `==` (which ignores only the sign of zero). -/
def PassesThrough {σ : Type} [Processor σ (Fl L)] (s : σ) : Prop :=
  ∀ (b : Build) (x : ℕ → Fl L), (∀ n, (x n).Finite) → ∃ y, Responds b s x y ∧ ∀ n, Fl.eq (y n) (x n) = true

/-- After a sample that is infinite or NaN, every output is NaN. -/
def PoisonedByInfinity {σ : Type} [Processor σ (Fl L)] (s : σ) : Prop :=
  Total (T := Fl L) s ∧
  ∀ (b : Build) (x y : ℕ → Fl L) (k : ℕ), Responds b s x y → ¬ (x k).Finite → ∀ n, k < n → (y n).IsNaN

open Fl
variable {b : Build} {x y : ℕ → Fl L}

theorem before_finite {h : Fl L} {x : ℕ → Fl L} (h0 : h.Finite) (hx : ∀ n, (x n).Finite) (n : ℕ) : (before h x n).Finite := by
  cases n with
  | zero => exact h0
  | succ n => exact hx n

theorem before_finite_lt {h : Fl L} {x : ℕ → Fl L} (h0 : h.Finite) {n : ℕ} (hx : ∀ m < n, (x m).Finite) :
    (before h x n).Finite := by
  cases n with
  | zero => exact h0
  | succ n => exact hx n (by omega)

theorem before_before_finite_lt {h h' : Fl L} {x : ℕ → Fl L} (h0 : h.Finite) (h0' : h'.Finite) {n : ℕ}
    (hx : ∀ m < n, (x m).Finite) : (before h (before h' x) n).Finite :=
  before_finite_lt h0 fun _ hm => before_finite_lt h0' fun k hk => hx k (by omega)

/-- Finite outputs equal to the inputs in value: `==`. -/
theorem passes_of_val {σ : Type} [Processor σ (Fl L)] {s : σ} (hs : NeverPanics σ (T := Fl L))
    (h : ∀ (b : Build) (x y : ℕ → Fl L), (∀ n, (x n).Finite) → Responds b s x y →
      ∀ n, (∀ m < n, (y m).Finite) → (y n).Finite ∧ (y n).toReal = (x n).toReal) : PassesThrough s := by
  intro b x hx
  obtain ⟨y, hy⟩ := hs.responds b s x
  have key : ∀ n, (y n).Finite ∧ (y n).toReal = (x n).toReal := by
    intro n
    induction n using Nat.strong_induction_on with
    | _ n ih => exact h b x y hx hy n fun m hm => (ih m hm).1
  exact ⟨y, hy, fun n => (Fl.eq_iff (key n).1 (hx n)).mpr (key n).2⟩

theorem biquad2_new_passes : PassesThrough (Biquad2.new : Biquad2 (Fl L)) := by
  refine passes_of_val (fun _ _ _ => ⟨_, _, rfl⟩) ?_
  intro b x y hx hy n hm
  rw [Biquad2.responds_iff] at hy
  have hz2 : ∀ m, m < n + 1 → (before (zero : Fl L) (fun k => zero *. x k -. zero *. y k) m).Finite ∧
      (before (zero : Fl L) (fun k => zero *. x k -. zero *. y k) m).toReal = 0 := by
    intro m hmn
    cases m with
    | zero => exact ⟨zero_finite, zero_toReal⟩
    | succ m =>
      have h1 := zero_mul_val (hx m)
      have h2 := zero_mul_val (hm m (by omega))
      have := sub_zero_val h1.1 h2.1 h2.2
      exact ⟨this.1, this.2.trans h1.2⟩
  have hz1 : (before (zero : Fl L) (fun m => zero *. x m +. before (zero : Fl L) (fun k => zero *. x k -. zero *. y k) m
      -. zero *. y m) n).Finite ∧
      (before (zero : Fl L) (fun m => zero *. x m +. before (zero : Fl L) (fun k => zero *. x k -. zero *. y k) m
      -. zero *. y m) n).toReal = 0 := by
    cases n with
    | zero => exact ⟨zero_finite, zero_toReal⟩
    | succ m =>
      have h1 := zero_mul_val (hx m)
      have h2 := zero_mul_val (hm m (by omega))
      have h3 := hz2 m (by omega)
      have h4 := add_zero_val h1.1 h3.1 h3.2
      have h5 := sub_zero_val h4.1 h2.1 h2.2
      exact ⟨h5.1, h5.2.trans (h4.2.trans h1.2)⟩
  have h1 := one_mul_val (hx n)
  have h2 := add_zero_val h1.1 hz1.1 hz1.2
  rw [hy n]
  exact ⟨h2.1, h2.2.trans h1.2⟩

/-- **C29.** New filters of every type return every finite sample unchanged, up to the sign of zero. -/
theorem C29_new_filters_pass_through (L : Libm f) :
    PassesThrough (OnePole.new : OnePole (Fl L)) ∧ PassesThrough (OneZero.new : OneZero (Fl L)) ∧
    PassesThrough (TwoPole.new : TwoPole (Fl L)) ∧ PassesThrough (TwoZero.new : TwoZero (Fl L)) ∧
    PassesThrough (Biquad1.new : Biquad1 (Fl L)) ∧ PassesThrough (Biquad2.new : Biquad2 (Fl L)) ∧
    PassesThrough (LowPass.new : LowPass (Fl L)) ∧ PassesThrough (HighPass.new : HighPass (Fl L)) ∧
    PassesThrough (BandPass1.new : BandPass1 (Fl L)) ∧ PassesThrough (BandPass2.new : BandPass2 (Fl L)) ∧
    PassesThrough (BandStop.new : BandStop (Fl L)) ∧ PassesThrough (AllPass.new : AllPass (Fl L)) ∧
    PassesThrough (Peak.new : Peak (Fl L)) ∧ PassesThrough (LowShelf.new : LowShelf (Fl L)) ∧
    PassesThrough (HighShelf.new : HighShelf (Fl L)) := by
  refine ⟨?_, ?_, ?_, ?_, ?_, biquad2_new_passes, ?_, ?_, ?_, ?_, ?_, ?_, ?_, ?_, ?_⟩
  · refine passes_of_val (fun _ _ _ => ⟨_, _, rfl⟩) fun b x y hx hy n hm => ?_
    rw [OnePole.responds_iff] at hy
    have h1 := one_mul_val (hx n)
    have h2 := zero_mul_val (before_finite_lt (h := (OnePole.new : OnePole (Fl L)).y_z1) zero_finite hm)
    have h3 := sub_zero_val h1.1 h2.1 h2.2
    rw [hy n]
    exact ⟨h3.1, h3.2.trans h1.2⟩
  · refine passes_of_val (fun _ _ _ => ⟨_, _, rfl⟩) fun b x y hx hy n hm => ?_
    rw [OneZero.responds_iff] at hy
    have h1 := one_mul_val (hx n)
    have h2 := zero_mul_val (before_finite (h := (OneZero.new : OneZero (Fl L)).x_z1) zero_finite hx n)
    have h3 := add_zero_val h1.1 h2.1 h2.2
    rw [hy n]
    exact ⟨h3.1, h3.2.trans h1.2⟩
  · refine passes_of_val (fun _ _ _ => ⟨_, _, rfl⟩) fun b x y hx hy n hm => ?_
    rw [TwoPole.responds_iff] at hy
    have h1 := one_mul_val (hx n)
    have h2 := zero_mul_val (before_finite_lt (h := (TwoPole.new : TwoPole (Fl L)).y_z1) zero_finite hm)
    have h2' := zero_mul_val (before_before_finite_lt (h := (TwoPole.new : TwoPole (Fl L)).y_z2)
      (h' := (TwoPole.new : TwoPole (Fl L)).y_z1) zero_finite zero_finite hm)
    have h3 := sub_zero_val h1.1 h2.1 h2.2
    have h4 := sub_zero_val h3.1 h2'.1 h2'.2
    rw [hy n]
    exact ⟨h4.1, h4.2.trans (h3.2.trans h1.2)⟩
  · refine passes_of_val (fun _ _ _ => ⟨_, _, rfl⟩) fun b x y hx hy n hm => ?_
    rw [TwoZero.responds_iff] at hy
    have h1 := one_mul_val (hx n)
    have h2 := zero_mul_val (before_finite (h := (TwoZero.new : TwoZero (Fl L)).x_z1) zero_finite hx n)
    have h2' := zero_mul_val (before_before_finite_lt (h := (TwoZero.new : TwoZero (Fl L)).x_z2)
      (h' := (TwoZero.new : TwoZero (Fl L)).x_z1) zero_finite zero_finite (n := n) fun m _ => hx m)
    have h3 := add_zero_val h1.1 h2.1 h2.2
    have h4 := add_zero_val h3.1 h2'.1 h2'.2
    rw [hy n]
    exact ⟨h4.1, h4.2.trans (h3.2.trans h1.2)⟩
  · refine passes_of_val (fun _ _ _ => ⟨_, _, rfl⟩) fun b x y hx hy n hm => ?_
    rw [Biquad1.responds_iff] at hy
    have h1 := one_mul_val (hx n)
    have h2 := zero_mul_val (before_finite (h := (Biquad1.new : Biquad1 (Fl L)).x_z1) zero_finite hx n)
    have h2' := zero_mul_val (before_before_finite_lt (h := (Biquad1.new : Biquad1 (Fl L)).x_z2)
      (h' := (Biquad1.new : Biquad1 (Fl L)).x_z1) zero_finite zero_finite (n := n) fun m _ => hx m)
    have h3 := add_zero_val h1.1 h2.1 h2.2
    have h4 := add_zero_val h3.1 h2'.1 h2'.2
    have g2 := zero_mul_val (before_finite_lt (h := (Biquad1.new : Biquad1 (Fl L)).y_z1) zero_finite hm)
    have g2' := zero_mul_val (before_before_finite_lt (h := (Biquad1.new : Biquad1 (Fl L)).y_z2)
      (h' := (Biquad1.new : Biquad1 (Fl L)).y_z1) zero_finite zero_finite hm)
    have h5 := sub_zero_val h4.1 g2.1 g2.2
    have h6 := sub_zero_val h5.1 g2'.1 g2'.2
    rw [hy n]
    exact ⟨h6.1, h6.2.trans (h5.2.trans (h4.2.trans (h3.2.trans h1.2)))⟩
  all_goals
    intro b x hx
    obtain ⟨y, hy, h⟩ := biquad2_new_passes b x hx
    refine ⟨y, ?_, h⟩
  · exact (LowPass.responds_iff _).mpr hy
  · exact (HighPass.responds_iff _).mpr hy
  · exact (BandPass1.responds_iff _).mpr hy
  · exact (BandPass2.responds_iff _).mpr hy
  · exact (BandStop.responds_iff _).mpr hy
  · exact (AllPass.responds_iff _).mpr hy
  · exact (Peak.responds_iff _).mpr hy
  · exact (LowShelf.responds_iff _).mpr hy
  · exact (HighShelf.responds_iff _).mpr hy

/-- Not a stream of zeros only: the constant one is finite. -/
example : ∀ n : ℕ, ((fun _ => one : ℕ → Fl L) n).Finite := fun _ => one_finite

theorem biquad2_new_poisoned : PoisonedByInfinity (Biquad2.new : Biquad2 (Fl L)) := by
  refine ⟨fun b x => NeverPanics.responds (fun _ _ _ => ⟨_, _, rfl⟩) b _ x, ?_⟩
  intro b x y k hy hk
  rw [Biquad2.responds_iff] at hy
  have hyk : ¬ (y k).Finite := by
    rw [hy k]
    exact add_not_finite_left (one_mul_not_finite hk)
  have step : ∀ n, ¬ (y n).Finite → (y (n + 1)).IsNaN := by
    intro n hn
    rw [hy (n + 1)]
    exact add_nan_right (sub_nan_right (zero_mul_not_finite hn))
  intro n hn
  induction n, hn using Nat.le_induction with
  | base => exact step k hyk
  | succ n _ ih => exact step n ih.not_finite

/-- **C29** fails once an infinity (or NaN) was processed: from then on all outputs of the recursive filters are NaN,
whatever the later input. -/
theorem C29_infinity_poisons (L : Libm f) :
    PoisonedByInfinity (OnePole.new : OnePole (Fl L)) ∧ PoisonedByInfinity (TwoPole.new : TwoPole (Fl L)) ∧
    PoisonedByInfinity (Biquad1.new : Biquad1 (Fl L)) ∧ PoisonedByInfinity (Biquad2.new : Biquad2 (Fl L)) ∧
    PoisonedByInfinity (LowPass.new : LowPass (Fl L)) ∧ PoisonedByInfinity (HighPass.new : HighPass (Fl L)) ∧
    PoisonedByInfinity (BandPass1.new : BandPass1 (Fl L)) ∧ PoisonedByInfinity (BandPass2.new : BandPass2 (Fl L)) ∧
    PoisonedByInfinity (BandStop.new : BandStop (Fl L)) ∧ PoisonedByInfinity (AllPass.new : AllPass (Fl L)) ∧
    PoisonedByInfinity (Peak.new : Peak (Fl L)) ∧ PoisonedByInfinity (LowShelf.new : LowShelf (Fl L)) ∧
    PoisonedByInfinity (HighShelf.new : HighShelf (Fl L)) := by
  refine ⟨?_, ?_, ?_, biquad2_new_poisoned, ?_, ?_, ?_, ?_, ?_, ?_, ?_, ?_, ?_⟩
  · refine ⟨fun b x => NeverPanics.responds (fun _ _ _ => ⟨_, _, rfl⟩) b _ x, ?_⟩
    intro b x y k hy hk
    rw [OnePole.responds_iff] at hy
    have step : ∀ n, ¬ (y n).Finite → (y (n + 1)).IsNaN := fun n hn => by
      rw [hy (n + 1)]
      exact sub_nan_right (zero_mul_not_finite hn)
    have hyk : ¬ (y k).Finite := by rw [hy k]; exact sub_not_finite_left (one_mul_not_finite hk)
    intro n hn
    induction n, hn using Nat.le_induction with
    | base => exact step k hyk
    | succ n _ ih => exact step n ih.not_finite
  · refine ⟨fun b x => NeverPanics.responds (fun _ _ _ => ⟨_, _, rfl⟩) b _ x, ?_⟩
    intro b x y k hy hk
    rw [TwoPole.responds_iff] at hy
    have step : ∀ n, ¬ (y n).Finite → (y (n + 1)).IsNaN := fun n hn => by
      rw [hy (n + 1)]
      exact sub_nan_left (sub_nan_right (zero_mul_not_finite hn))
    have hyk : ¬ (y k).Finite := by
      rw [hy k]; exact sub_not_finite_left (sub_not_finite_left (one_mul_not_finite hk))
    intro n hn
    induction n, hn using Nat.le_induction with
    | base => exact step k hyk
    | succ n _ ih => exact step n ih.not_finite
  · refine ⟨fun b x => NeverPanics.responds (fun _ _ _ => ⟨_, _, rfl⟩) b _ x, ?_⟩
    intro b x y k hy hk
    rw [Biquad1.responds_iff] at hy
    have step : ∀ n, ¬ (y n).Finite → (y (n + 1)).IsNaN := fun n hn => by
      rw [hy (n + 1)]
      exact sub_nan_left (sub_nan_right (zero_mul_not_finite hn))
    have hyk : ¬ (y k).Finite := by
      rw [hy k]
      exact sub_not_finite_left (sub_not_finite_left (add_not_finite_left (add_not_finite_left (one_mul_not_finite hk))))
    intro n hn
    induction n, hn using Nat.le_induction with
    | base => exact step k hyk
    | succ n _ ih => exact step n ih.not_finite
  · exact ⟨fun b x => NeverPanics.responds (fun _ _ _ => ⟨_, _, rfl⟩) b _ x, fun b x y k hy => biquad2_new_poisoned.2 b x y k ((LowPass.responds_iff _).mp hy)⟩
  · exact ⟨fun b x => NeverPanics.responds (fun _ _ _ => ⟨_, _, rfl⟩) b _ x, fun b x y k hy => biquad2_new_poisoned.2 b x y k ((HighPass.responds_iff _).mp hy)⟩
  · exact ⟨fun b x => NeverPanics.responds (fun _ _ _ => ⟨_, _, rfl⟩) b _ x, fun b x y k hy => biquad2_new_poisoned.2 b x y k ((BandPass1.responds_iff _).mp hy)⟩
  · exact ⟨fun b x => NeverPanics.responds (fun _ _ _ => ⟨_, _, rfl⟩) b _ x, fun b x y k hy => biquad2_new_poisoned.2 b x y k ((BandPass2.responds_iff _).mp hy)⟩
  · exact ⟨fun b x => NeverPanics.responds (fun _ _ _ => ⟨_, _, rfl⟩) b _ x, fun b x y k hy => biquad2_new_poisoned.2 b x y k ((BandStop.responds_iff _).mp hy)⟩
  · exact ⟨fun b x => NeverPanics.responds (fun _ _ _ => ⟨_, _, rfl⟩) b _ x, fun b x y k hy => biquad2_new_poisoned.2 b x y k ((AllPass.responds_iff _).mp hy)⟩
  · exact ⟨fun b x => NeverPanics.responds (fun _ _ _ => ⟨_, _, rfl⟩) b _ x, fun b x y k hy => biquad2_new_poisoned.2 b x y k ((Peak.responds_iff _).mp hy)⟩
  · exact ⟨fun b x => NeverPanics.responds (fun _ _ _ => ⟨_, _, rfl⟩) b _ x, fun b x y k hy => biquad2_new_poisoned.2 b x y k ((LowShelf.responds_iff _).mp hy)⟩
  · exact ⟨fun b x => NeverPanics.responds (fun _ _ _ => ⟨_, _, rfl⟩) b _ x, fun b x y k hy => biquad2_new_poisoned.2 b x y k ((HighShelf.responds_iff _).mp hy)⟩

/-- **C29**, the feedforward filters: an infinity or NaN spoils the next output (the next two for `TwoZero`), and only
these: any output whose own and preceding one (two) samples are finite is the input again. -/
theorem C29_infinity_feedforward (L : Libm f) (b : Build) (x : ℕ → Fl L) :
    (∃ y, Responds b (OneZero.new : OneZero (Fl L)) x y ∧
      (∀ k, ¬ (x k).Finite → (y (k + 1)).IsNaN) ∧
      ∀ n, (∀ j, j ≤ n → n ≤ j + 1 → (x j).Finite) → Fl.eq (y n) (x n) = true) ∧
    (∃ y, Responds b (TwoZero.new : TwoZero (Fl L)) x y ∧
      (∀ k, ¬ (x k).Finite → (y (k + 1)).IsNaN ∧ (y (k + 2)).IsNaN) ∧
      ∀ n, (∀ j, j ≤ n → n ≤ j + 2 → (x j).Finite) → Fl.eq (y n) (x n) = true) := by
  refine ⟨⟨_, (OneZero.responds_iff _).mpr fun _ => rfl, fun k hk => ?_, fun n hn => ?_⟩,
    ⟨_, (TwoZero.responds_iff _).mpr fun _ => rfl, fun k hk => ?_, fun n hn => ?_⟩⟩
  · exact add_nan_right (zero_mul_not_finite hk)
  · have h0 := hn n le_rfl (by omega)
    have h1 : (before (zero : Fl L) x n).Finite := by
      cases n with
      | zero => exact Fl.zero_finite
      | succ n => exact hn n (by omega) le_rfl
    obtain ⟨e1, e2⟩ := one_mul_val h0
    obtain ⟨e3, e4⟩ := zero_mul_val h1
    obtain ⟨e5, e6⟩ := add_zero_val e1 e3 e4
    exact (Fl.eq_iff e5 h0).mpr (e6.trans e2)
  · exact ⟨add_nan_left (add_nan_right (zero_mul_not_finite hk)), add_nan_right (zero_mul_not_finite hk)⟩
  · have h0 := hn n le_rfl (by omega)
    have h1 : (before (zero : Fl L) x n).Finite := by
      cases n with
      | zero => exact Fl.zero_finite
      | succ n => exact hn n (by omega) (by omega)
    have h2 : (before (zero : Fl L) (before zero x) n).Finite := by
      match n with
      | 0 => exact Fl.zero_finite
      | 1 => exact Fl.zero_finite
      | n + 2 => exact hn n (by omega) le_rfl
    obtain ⟨e1, e2⟩ := one_mul_val h0
    obtain ⟨e3, e4⟩ := zero_mul_val h1
    obtain ⟨e5, e6⟩ := add_zero_val e1 e3 e4
    obtain ⟨e7, e8⟩ := zero_mul_val h2
    obtain ⟨e9, e10⟩ := add_zero_val e5 e7 e8
    exact (Fl.eq_iff e9 h0).mpr (e10.trans (e6.trans e2))

/-- There are infinite samples. -/
example : ¬ (inf L false).Finite := inf_not_finite _

end Rasp
