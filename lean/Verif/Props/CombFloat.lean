import Verif.Spec.Comb
import Verif.Props.Feedback
import Verif.Props.LinearClose
import Mathlib.Tactic.FieldSimp

/-!
# C108: comb and all-pass loops in floating point
-/

namespace Rasp
open FloatOps Fl
variable {f : Fmt} {L : Libm f} {L32 : Libm binary32} {b : Build}

/-! ## One round of the loop -/

/-- `x + g v` in floating point. -/
theorem comb_round {x g v : Fl L} {X W : ℝ} (hx : x.Within X) (hg : g.Finite) (hv : v.Within W) (hXW : X ≤ W) (hη : f.tiny ≤ W)
    (hg1 : |g.toReal| < 1) (hov : 4 * W ≤ 2 ^ f.emax) :
    (x +. (g *. v)).Finite ∧ |(x +. (g *. v)).toReal - (x.toReal + g.toReal * v.toReal)| ≤ 4 * f.u * W + 3 * f.tiny := by
  have hu := f.u_pos
  have hu4 := f.u_le
  have ht := f.tiny_pos
  have hW : 0 ≤ W := ht.le.trans hη
  have hp : |g.toReal * v.toReal| ≤ W := by
    rw [abs_mul]
    nlinarith [hv.2, abs_nonneg g.toReal, abs_nonneg v.toReal]
  obtain ⟨h1, h2⟩ := mul_val hg hv.1 (noOvf_of_le_emax (hp.trans (by linarith)))
  have e1 := abs_rnd_sub_le_u f (g.toReal * v.toReal)
  rw [← h2] at e1
  have q1 : f.u * |g.toReal * v.toReal| ≤ f.u * W := mul_le_mul_of_nonneg_left hp hu.le
  have q2 : f.u * W ≤ 1 / 4 * W := mul_le_mul_of_nonneg_right hu4 hW
  have hs : |x.toReal + (g *. v).toReal| ≤ 13 / 4 * W := by
    have := abs_add_le x.toReal (g *. v).toReal
    have := abs_sub_abs_le_abs_sub (g *. v).toReal (g.toReal * v.toReal)
    have := hx.2
    linarith
  obtain ⟨h3, h4⟩ := add_val hx.1 h1 (noOvf_of_le_emax (hs.trans (by linarith)))
  refine ⟨h3, ?_⟩
  have e2 := abs_rnd_sub_le_u f (x.toReal + (g *. v).toReal)
  rw [← h4] at e2
  have q3 : |x.toReal + (g *. v).toReal| ≤ 2 * W + (f.u * W + f.tiny) := by
    have := abs_add_le x.toReal (g *. v).toReal
    have := abs_sub_abs_le_abs_sub (g *. v).toReal (g.toReal * v.toReal)
    have := hx.2
    linarith
  have q4 := mul_le_mul_of_nonneg_left q3 hu.le
  have q5 : f.u * (f.u * W) ≤ 1 / 4 * (f.u * W) := mul_le_mul_of_nonneg_right hu4 (by positivity)
  have q6 : f.u * f.tiny ≤ 1 / 4 * f.tiny := mul_le_mul_of_nonneg_right hu4 ht.le
  have e : (x +. (g *. v)).toReal - (x.toReal + g.toReal * v.toReal) =
      ((x +. (g *. v)).toReal - (x.toReal + (g *. v).toReal)) + ((g *. v).toReal - g.toReal * v.toReal) := by ring
  rw [e]
  refine (abs_add_le _ _).trans ?_
  nlinarith

/-- `v - g u` in floating point. -/
theorem allpass_round {v g u : Fl L} {W : ℝ} (hv : v.Within W) (hg : g.Finite) (hu : u.Within W) (hη : f.tiny ≤ W)
    (hg1 : |g.toReal| < 1) (hov : 4 * W ≤ 2 ^ f.emax) :
    (v -. (g *. u)).Finite ∧ |(v -. (g *. u)).toReal - (v.toReal - g.toReal * u.toReal)| ≤ 4 * f.u * W + 3 * f.tiny := by
  have hu' := f.u_pos
  have hu4 := f.u_le
  have ht := f.tiny_pos
  have hW : 0 ≤ W := ht.le.trans hη
  have hp : |g.toReal * u.toReal| ≤ W := by
    rw [abs_mul]
    nlinarith [hu.2, abs_nonneg g.toReal, abs_nonneg u.toReal]
  obtain ⟨h1, h2⟩ := mul_val hg hu.1 (noOvf_of_le_emax (hp.trans (by linarith)))
  have e1 := abs_rnd_sub_le_u f (g.toReal * u.toReal)
  rw [← h2] at e1
  have q1 : f.u * |g.toReal * u.toReal| ≤ f.u * W := mul_le_mul_of_nonneg_left hp hu'.le
  have q2 : f.u * W ≤ 1 / 4 * W := mul_le_mul_of_nonneg_right hu4 hW
  have q3 : |v.toReal - (g *. u).toReal| ≤ 2 * W + (f.u * W + f.tiny) := by
    have := abs_sub v.toReal (g *. u).toReal
    have := abs_sub_abs_le_abs_sub (g *. u).toReal (g.toReal * u.toReal)
    have := hv.2
    linarith
  obtain ⟨h3, h4⟩ := sub_val hv.1 h1 (noOvf_of_le_emax (q3.trans (by linarith)))
  refine ⟨h3, ?_⟩
  have e2 := abs_rnd_sub_le_u f (v.toReal - (g *. u).toReal)
  rw [← h4] at e2
  have q4 := mul_le_mul_of_nonneg_left q3 hu'.le
  have q5 : f.u * (f.u * W) ≤ 1 / 4 * (f.u * W) := mul_le_mul_of_nonneg_right hu4 (by positivity)
  have q6 : f.u * f.tiny ≤ 1 / 4 * f.tiny := mul_le_mul_of_nonneg_right hu4 ht.le
  have e : (v -. (g *. u)).toReal - (v.toReal - g.toReal * u.toReal) =
      ((v -. (g *. u)).toReal - (v.toReal - (g *. u).toReal)) - ((g *. u).toReal - g.toReal * u.toReal) := by ring
  rw [e]
  refine (abs_sub _ _).trans ?_
  nlinarith

/-- The loop, with a delay that adds errors of at most `lam`. -/
theorem comb_close {g : Fl L} (hg : g.Finite) (hg1 : |g.toReal| < 1) {x u v : ℕ → Fl L} {z zv : ℕ → ℝ} {X W E lam : ℝ}
    (hx : ∀ n, (x n).Within X) (hu : ∀ n, u n = x n +. (g *. v n)) (hz : ∀ n, z n = (x n).toReal + g.toReal * zv n)
    (hzb : ∀ n, |z n| ≤ X / (1 - |g.toReal|)) (hzvb : ∀ n, |zv n| ≤ X / (1 - |g.toReal|)) (hlam : 0 ≤ lam)
    (hv : ∀ n, (∀ j < n, (u j).Within W) → (∀ j < n, |(u j).toReal - z j| ≤ E) → (v n).Finite ∧ |(v n).toReal - zv n| ≤ E + lam)
    (hE : lam + 4 * f.u * W + 3 * f.tiny ≤ (1 - |g.toReal|) * E) (hW : X / (1 - |g.toReal|) + E + lam ≤ W) (hη : f.tiny ≤ W)
    (hov : 4 * W ≤ 2 ^ f.emax) (n : ℕ) : (u n).Within W ∧ |(u n).toReal - z n| ≤ E ∧ (v n).Within W := by
  have hX : 0 ≤ X := (abs_nonneg _).trans (hx 0).2
  have hγ := abs_nonneg g.toReal
  have hXW : X ≤ X / (1 - |g.toReal|) := by
    rw [le_div_iff₀ (by linarith)]
    nlinarith
  have hE0 : 0 ≤ E := by
    have h1 := f.tiny_pos
    have h2 : 0 ≤ f.u * W := mul_nonneg f.u_pos.le (f.tiny_pos.le.trans hη)
    by_contra h
    push Not at h
    nlinarith
  induction n using Nat.strong_induction_on with
  | _ n ih =>
    obtain ⟨v1, v2⟩ := hv n (fun j hj => (ih j hj).1) (fun j hj => (ih j hj).2.1)
    have hvW : (v n).Within W := by
      refine ⟨v1, ?_⟩
      have := abs_sub_abs_le_abs_sub (v n).toReal (zv n)
      have := hzvb n
      linarith
    obtain ⟨r1, r2⟩ := comb_round (hx n) hg hvW (by linarith) hη hg1 hov
    rw [← hu] at r1 r2
    have key : |(u n).toReal - z n| ≤ E := by
      have e : (u n).toReal - z n = ((u n).toReal - ((x n).toReal + g.toReal * (v n).toReal)) + g.toReal * ((v n).toReal - zv n) := by
        rw [hz n]; ring
      rw [e]
      refine (abs_add_le _ _).trans ?_
      rw [abs_mul]
      have := mul_le_mul_of_nonneg_left v2 hγ
      nlinarith
    refine ⟨⟨r1, ?_⟩, key, hvW⟩
    have := abs_sub_abs_le_abs_sub (u n).toReal (z n)
    have := hzb n
    linarith

/-! ## Loops around a `Delay` -/

theorem lag_within {u : ℕ → Fl L} {z : ℕ → ℝ} {E : ℝ} {k n : ℕ} (hE : 0 ≤ E) (hk : 1 ≤ k) (h : ∀ j < n, (u j).Finite ∧ |(u j).toReal - z j| ≤ E) :
    (lag u k n).Finite ∧ |(lag u k n).toReal - lag z k n| ≤ E := by
  unfold lag
  split_ifs with hkn
  · exact h (n - k) (by omega)
  · exact ⟨zero_finite, by rw [zero_toReal, real_zero]; simpa using hE⟩

theorem comb_lag_bounded {g B : ℝ} (hg : |g| < 1) {k : ℕ} (hk : 1 ≤ k) {x z : ℕ → ℝ} (h : Comb g k x z) (hx : ∀ n, |x n| ≤ B) (n : ℕ) :
    |z n| ≤ B / (1 - |g|) ∧ |lag z k n| ≤ B / (1 - |g|) := by
  have hB : 0 ≤ B := (abs_nonneg _).trans (hx 0)
  refine ⟨comb_bounded hg hk h hx n, ?_⟩
  unfold lag
  split_ifs
  · exact comb_bounded hg hk h hx _
  · rw [real_zero, _root_.abs_zero]; exact div_nonneg hB (by linarith)

/-- The error bound of the loops: `8 · 2^-p X / (1-|g|)² + 6 · 2^emin / (1-|g|)`. -/
noncomputable def combBound (f : Fmt) (g X : ℝ) : ℝ := 8 * f.u * X / (1 - |g|) ^ 2 + 6 * f.tiny / (1 - |g|)

theorem comb_delay_close {g : Fl L} (hg : g.Finite) (hg1 : 16 * f.u ≤ 1 - |g.toReal|) {k : ℕ} (hk : 1 ≤ k) {X : ℝ} {x u : ℕ → Fl L} {z : ℕ → ℝ}
    (hov : (8 * X + 48 * f.tiny) / (1 - |g.toReal|) ≤ 2 ^ f.emax) (hx : ∀ n, (x n).Within X) (hu : ∀ n, u n = x n +. (g *. lag u k n))
    (hz : Comb g.toReal k (fun n => (x n).toReal) z) (n : ℕ) :
    (u n).Within ((2 * X + 12 * f.tiny) / (1 - |g.toReal|)) ∧ |(u n).toReal - z n| ≤ combBound f g.toReal X ∧
      (lag u k n).Within ((2 * X + 12 * f.tiny) / (1 - |g.toReal|)) := by
  have hu0 := f.u_pos
  have ht := f.tiny_pos
  have hγ := abs_nonneg g.toReal
  have hX : 0 ≤ X := (abs_nonneg _).trans (hx 0).2
  have h1 : 0 < 1 - |g.toReal| := by linarith
  have hb := comb_lag_bounded (by linarith) hk hz fun n => (hx n).2
  have hEn : 0 ≤ combBound f g.toReal X := by unfold combBound; positivity
  refine comb_close hg (by linarith) hx hu hz (fun n => (hb n).1) (fun n => (hb n).2) (lam := 0) le_rfl ?_ ?_ ?_ ?_ ?_ n
  · intro n hw hc
    rw [add_zero]
    exact lag_within hEn hk fun j hj => ⟨(hw j hj).1, hc j hj⟩
  · unfold combBound
    rw [zero_add]
    have e : (1 - |g.toReal|) * (8 * f.u * X / (1 - |g.toReal|) ^ 2 + 6 * f.tiny / (1 - |g.toReal|)) =
        (8 * f.u * X + 6 * f.tiny * (1 - |g.toReal|)) / (1 - |g.toReal|) := by field_simp
    rw [e, show 4 * f.u * ((2 * X + 12 * f.tiny) / (1 - |g.toReal|)) + 3 * f.tiny =
      (4 * f.u * (2 * X + 12 * f.tiny) + 3 * f.tiny * (1 - |g.toReal|)) / (1 - |g.toReal|) by field_simp]
    refine div_le_div_of_nonneg_right ?_ h1.le
    nlinarith
  · unfold combBound
    rw [add_zero]
    have e : 8 * f.u * X / (1 - |g.toReal|) ^ 2 ≤ X / 2 / (1 - |g.toReal|) := by
      rw [div_le_div_iff₀ (by positivity) h1]
      have := mul_le_mul_of_nonneg_right hg1 (mul_nonneg hX h1.le)
      nlinarith
    have e2 : X / (1 - |g.toReal|) + (X / 2 / (1 - |g.toReal|) + 6 * f.tiny / (1 - |g.toReal|)) ≤ (2 * X + 12 * f.tiny) / (1 - |g.toReal|) := by
      rw [← add_div, ← add_div]
      exact div_le_div_of_nonneg_right (by linarith) h1.le
    linarith
  · rw [le_div_iff₀ h1]
    nlinarith
  · calc 4 * ((2 * X + 12 * f.tiny) / (1 - |g.toReal|)) = (8 * X + 48 * f.tiny) / (1 - |g.toReal|) := by ring
      _ ≤ _ := hov

/-- **C108**. The comb loop around a new `Delay`, `|g| ≤ 1 - 2^(4-p)`: runs forever, and stays close to the comb filter in exact arithmetic. -/
theorem C108_comb [Target] {d m : ℕ} (hm : Allocatable (Fl L) m) {g : Fl L} (hg : g.Finite) (hg1 : 16 * f.u ≤ 1 - |g.toReal|) {X : ℝ}
    (hov : (8 * X + 48 * f.tiny) / (1 - |g.toReal|) ≤ 2 ^ f.emax) {k : ℕ} (hk : k = if min d m = 0 then m + 1 else min d m) :
    ∃ s : Delay (Fl L), Delay.new b d m = .ok s ∧ ∀ x : ℕ → Fl L, (∀ n, (x n).Within X) →
      (∃ u v r, FeedbackLoop b Delay.announce (fun x v => x +. (g *. v)) s x u v r) ∧
      ∀ u v r z, FeedbackLoop b Delay.announce (fun x v => x +. (g *. v)) s x u v r → Comb g.toReal k (fun n => (x n).toReal) z →
        StaysClose u z (combBound f g.toReal X) := by
  obtain ⟨s, hn, -⟩ := C92_delay (b := b) (d := d) hm (fun x v => x +. (g *. v)) fun _ => zero
  have hk1 : 1 ≤ k := by rw [hk]; split_ifs <;> omega
  refine ⟨s, hn, fun x hx => ?_⟩
  obtain ⟨s', hn', he, hi⟩ := C92_delay (b := b) (d := d) hm (fun x v => x +. (g *. v)) x
  rw [hn] at hn'
  cases hn'
  refine ⟨he, fun u v r z hl hz n => ?_⟩
  have h := (hi u v r).mp hl
  rw [← hk] at h
  have := comb_delay_close hg hg1 hk1 hov hx (u := u) (fun n => by rw [(h n).2.1, (h n).1]) hz n
  exact ⟨this.1.1, this.2.1⟩

/-- **C108**. The all-pass output `v - g u` of that loop stays close too. -/
theorem C108_allpass [Target] {d m : ℕ} (hm : Allocatable (Fl L) m) {g : Fl L} (hg : g.Finite) (hg1 : 16 * f.u ≤ 1 - |g.toReal|) {X : ℝ}
    (hov : (8 * X + 48 * f.tiny) / (1 - |g.toReal|) ≤ 2 ^ f.emax) {k : ℕ} (hk : k = if min d m = 0 then m + 1 else min d m) :
    ∃ s : Delay (Fl L), Delay.new b d m = .ok s ∧ ∀ (x u v r : ℕ → Fl L) (z : ℕ → ℝ), (∀ n, (x n).Within X) →
      FeedbackLoop b Delay.announce (fun x v => x +. (g *. v)) s x u v r → Comb g.toReal k (fun n => (x n).toReal) z →
        StaysClose (fun n => v n -. (g *. u n)) (fun n => lag z k n - g.toReal * z n) (2 * combBound f g.toReal X) := by
  obtain ⟨s, hn, -⟩ := C92_delay (b := b) (d := d) hm (fun x v => x +. (g *. v)) fun _ => zero
  have hk1 : 1 ≤ k := by rw [hk]; split_ifs <;> omega
  refine ⟨s, hn, fun x u v r z hx hl hz n => ?_⟩
  obtain ⟨s', hn', -, hi⟩ := C92_delay (b := b) (d := d) hm (fun x v => x +. (g *. v)) x
  rw [hn] at hn'
  cases hn'
  have h := (hi u v r).mp hl
  rw [← hk] at h
  have hc := comb_delay_close hg hg1 hk1 hov hx (u := u) (fun n => by rw [(h n).2.1, (h n).1]) hz
  have hu0 := f.u_pos
  have ht := f.tiny_pos
  have hγ := abs_nonneg g.toReal
  have hX : 0 ≤ X := (abs_nonneg _).trans (hx 0).2
  have h1 : 0 < 1 - |g.toReal| := by linarith
  have hE : 0 ≤ combBound f g.toReal X := by unfold combBound; positivity
  obtain ⟨-, l2⟩ := lag_within (n := n) hE hk1 fun j _ => ⟨(hc j).1.1, (hc j).2.1⟩
  have hη : f.tiny ≤ (2 * X + 12 * f.tiny) / (1 - |g.toReal|) := by rw [le_div_iff₀ h1]; nlinarith
  obtain ⟨r1, r2⟩ := allpass_round (hc n).2.2 hg (hc n).1 hη (by linarith) (by
    calc 4 * ((2 * X + 12 * f.tiny) / (1 - |g.toReal|)) = (8 * X + 48 * f.tiny) / (1 - |g.toReal|) := by ring
      _ ≤ _ := hov)
  rw [← (h n).1] at r1 r2 l2
  refine ⟨r1, ?_⟩
  have hloc : 4 * f.u * ((2 * X + 12 * f.tiny) / (1 - |g.toReal|)) + 3 * f.tiny ≤ (1 - |g.toReal|) * combBound f g.toReal X := by
    unfold combBound
    have e : (1 - |g.toReal|) * (8 * f.u * X / (1 - |g.toReal|) ^ 2 + 6 * f.tiny / (1 - |g.toReal|)) =
        (8 * f.u * X + 6 * f.tiny * (1 - |g.toReal|)) / (1 - |g.toReal|) := by field_simp
    rw [e, show 4 * f.u * ((2 * X + 12 * f.tiny) / (1 - |g.toReal|)) + 3 * f.tiny =
      (4 * f.u * (2 * X + 12 * f.tiny) + 3 * f.tiny * (1 - |g.toReal|)) / (1 - |g.toReal|) by field_simp]
    refine div_le_div_of_nonneg_right ?_ h1.le
    nlinarith
  have e : (v n -. (g *. u n)).toReal - (lag z k n - g.toReal * z n) =
      ((v n -. (g *. u n)).toReal - ((v n).toReal - g.toReal * (u n).toReal)) + (((v n).toReal - lag z k n) - g.toReal * ((u n).toReal - z n)) := by ring
  show |(v n -. (g *. u n)).toReal - (lag z k n - g.toReal * z n)| ≤ _
  rw [e]
  refine (abs_add_le _ _).trans ?_
  have a1 := abs_sub ((v n).toReal - lag z k n) (g.toReal * ((u n).toReal - z n))
  rw [abs_mul] at a1
  have a2 := mul_le_mul_of_nonneg_left (hc n).2.1 hγ
  linarith

/-! ## Loops around a `LinearDelay` -/

/-- What `next_out` announces depends only on samples processed before. -/
theorem FeedbackLoop.causal {σ T : Type} [Processor σ T] {next : σ → Res (σ × T)} {c c' : T → T → T} {s : σ} {x u v r x' u' v' r' : ℕ → T}
    (h : FeedbackLoop b next c s x u v r) (h' : FeedbackLoop b next c' s x' u' v' r') {n : ℕ} (hu : ∀ j < n, u j = u' j) : v n = v' n := by
  obtain ⟨st, mid, h0, hs⟩ := h
  obtain ⟨st', mid', h0', hs'⟩ := h'
  have key : ∀ k ≤ n, st k = st' k := by
    intro k
    induction k with
    | zero => intro _; rw [h0, h0']
    | succ k ih =>
      intro hk
      obtain ⟨a1, -, a3⟩ := hs k
      obtain ⟨b1, -, b3⟩ := hs' k
      rw [ih (by omega)] at a1
      obtain ⟨e1, -⟩ := Prod.mk.inj (Except.ok.inj (a1.symm.trans b1))
      rw [e1, hu k (by omega)] at a3
      exact (Prod.mk.inj (Except.ok.inj (a3.symm.trans b3))).1
  have a := (hs n).1
  rw [key n le_rfl] at a
  exact (Prod.mk.inj (Except.ok.inj (a.symm.trans (hs' n).1))).2

theorem interp_le {δ : ℝ} (hδ : 1 ≤ δ) {e : ℕ → ℝ} {n : ℕ} {B : ℝ} (hB : 0 ≤ B) (h : ∀ j < n, |e j| ≤ B) : |interp δ [] e n| ≤ B := by
  have h0 : 0 ≤ δ := by linarith
  have h1 := Nat.floor_le h0
  have h2 := Nat.lt_floor_add_one δ
  have h3 : 1 ≤ ⌊δ⌋₊ := Nat.one_le_floor_iff δ |>.mpr hδ
  have hd : ∀ k, 1 ≤ k → |delayedBy k ([] : List ℝ) e n| ≤ B := by
    intro k hk
    unfold delayedBy
    split_ifs with hkn
    · exact h _ (by omega)
    · simpa [real_zero] using hB
  unfold interp
  refine (abs_add_le _ _).trans ?_
  rw [abs_mul, abs_mul, abs_of_nonneg (by linarith : 0 ≤ 1 - (δ - ⌊δ⌋₊)), abs_of_nonneg (by linarith : 0 ≤ δ - ⌊δ⌋₊)]
  have e1 := mul_le_mul_of_nonneg_left (hd ⌊δ⌋₊ h3) (by linarith : 0 ≤ 1 - (δ - ⌊δ⌋₊))
  have e2 := mul_le_mul_of_nonneg_left (hd (⌊δ⌋₊ + 1) (by omega)) (by linarith : 0 ≤ δ - ⌊δ⌋₊)
  linarith

theorem interp_sub (δ : ℝ) (x y : ℕ → ℝ) (n : ℕ) : interp δ [] x n - interp δ [] y n = interp δ [] (fun k => x k - y k) n := by
  have : ∀ k, delayedBy k ([] : List ℝ) x n - delayedBy k [] y n = delayedBy k [] (fun k => x k - y k) n := by
    intro k
    unfold delayedBy
    split_ifs <;> simp [real_zero]
  unfold interp
  rw [← this, ← this]
  ring

theorem interp_congr {δ : ℝ} (hδ : 1 ≤ δ) {x y : ℕ → ℝ} {n : ℕ} (h : ∀ j < n, x j = y j) : interp δ [] x n = interp δ [] y n := by
  have := interp_le hδ (e := fun k => x k - y k) (n := n) le_rfl fun j hj => by rw [h j hj]; simp
  rw [← interp_sub] at this
  have := abs_nonpos_iff.mp this
  linarith

theorem fractionalComb_bounded {g B δ : ℝ} (hg : |g| < 1) (hδ : 1 ≤ δ) {x z : ℕ → ℝ} (h : FractionalComb g δ x z) (hx : ∀ n, |x n| ≤ B) (n : ℕ) :
    |z n| ≤ B / (1 - |g|) ∧ |interp δ [] z n| ≤ B / (1 - |g|) := by
  have hB : 0 ≤ B := (abs_nonneg _).trans (hx 0)
  have hq : 0 < 1 - |g| := by linarith
  have hfix : B + |g| * (B / (1 - |g|)) = B / (1 - |g|) := by field_simp; ring
  induction n using Nat.strong_induction_on with
  | _ n ih =>
    have hi := interp_le hδ (by positivity) fun j hj => (ih j hj).1
    refine ⟨?_, hi⟩
    rw [h n, ← hfix]
    refine (abs_add_le _ _).trans ?_
    rw [abs_mul]
    have := mul_le_mul_of_nonneg_left hi (abs_nonneg g)
    linarith [hx n]

/-- The error bound of the loops around a `LinearDelay` of `N` slots. -/
noncomputable def fracCombBound (f : Fmt) (g X : ℝ) (N : ℕ) : ℝ :=
  (4 * (N / 2 ^ 22) + 20 * f.u) * X / (1 - |g|) ^ 2 + 20 * f.tiny / (1 - |g|)

/-- **C108**. The comb loop around a new `LinearDelay` with a delay of at least 2 samples that is not just above an integer: runs forever, and
stays close to the comb filter with exact interpolation. -/
theorem C108_fractional_comb [Target] (hp : 24 ≤ f.p) (hem : f.emin ≤ -149) {m : ℕ} (hm : Allocatable (Fl L) m) (hl : m + 1 < 2 ^ 24) {g : Fl L} (hg : g.Finite)
    (hg1 : 16 * ((m + 1 : ℕ) / 2 ^ 22) + 80 * f.u ≤ 1 - |g.toReal|) {X : ℝ} (hX : 0 ≤ X)
    (hov : (10 * X + 400 * f.tiny) / (1 - |g.toReal|) ≤ 2 ^ f.emax) {d : Fl L32} (hdf : d.Finite) {δ : ℝ}
    (hδ : δ = max 0 (min d.toReal m)) (hcl : ClearOf (m + 1) δ) (hδ2 : 2 ≤ δ) :
    ∃ s : LinearDelay (Fl L32) (Fl L), LinearDelay.new b d m = .ok s ∧ ∀ x : ℕ → Fl L, (∀ n, (x n).Within X) →
      (∃ u v r, FeedbackLoop b (LinearDelay.nextOut b) (fun x v => x +. (g *. v)) s x u v r) ∧
      ∀ u v r z, FeedbackLoop b (LinearDelay.nextOut b) (fun x v => x +. (g *. v)) s x u v r → FractionalComb g.toReal δ (fun n => (x n).toReal) z →
        StaysClose u z (fracCombBound f g.toReal X (m + 1)) := by
  have hu0 := f.u_pos
  have ht := f.tiny_pos
  have hγ := abs_nonneg g.toReal
  have hρ : (0 : ℝ) ≤ (m + 1 : ℕ) / 2 ^ 22 := by positivity
  have h1 : 0 < 1 - |g.toReal| := by linarith
  obtain ⟨ρ, hρe⟩ : ∃ ρ : ℝ, ρ = (m + 1 : ℕ) / 2 ^ 22 := ⟨_, rfl⟩
  obtain ⟨W, hW⟩ : ∃ W : ℝ, W = (2 * X + 66 * f.tiny) / (1 - |g.toReal|) := ⟨_, rfl⟩
  obtain ⟨E, hE⟩ : ∃ E : ℝ, E = (4 * ρ + 20 * f.u) * X / (1 - |g.toReal|) ^ 2 + 20 * f.tiny / (1 - |g.toReal|) := ⟨_, rfl⟩
  rw [← hρe] at hg1 hρ
  have hW66 : 66 * f.tiny ≤ W := by
    rw [hW, le_div_iff₀ h1]
    nlinarith
  have hW0 : 0 ≤ W := by linarith
  have hov5 : 5 * W ≤ 2 ^ f.emax := by
    refine le_trans ?_ hov
    rw [hW, ← mul_div_assoc]
    exact div_le_div_of_nonneg_right (by linarith) h1.le
  obtain ⟨s, hs, -, hgd, hacc⟩ := C78_new_accurate (b := b) (L := L) hp hem hm hl (X := W) (by linarith) hdf hδ hcl
  rw [← hρe] at hacc
  obtain ⟨hmem, -⟩ := LinearDelay.new_frame hm hs
  have hvia : LinearDelay.ReachableVia b (fun n => n ≤ 2 ^ 24) s := .new hm hs (by rw [hmem, List.length_replicate]; omega)
  have hloop := fun c x => C92_linearDelay_ieee hvia (by rw [hgd]; exact hδ2) c x
  refine ⟨s, hs, fun x hx => ⟨(hloop _ x).1, fun u v r z hf hz n => ?_⟩⟩
  obtain ⟨-, hu, -⟩ := ((hloop _ x).2 u v r).mp hf
  have hδ1 : 1 ≤ δ := by linarith
  have hb := fractionalComb_bounded (by linarith) hδ1 hz fun n => (hx n).2
  have hE0 : 0 ≤ E := by rw [hE]; positivity
  have hlam : 0 ≤ 2 * W * ρ + 6 * (f.u * W + f.tiny) := by positivity
  have c1 : 2 * W * ρ + 6 * (f.u * W + f.tiny) + 4 * f.u * W + 3 * f.tiny ≤ (1 - |g.toReal|) * E := by
    have e1 : (1 - |g.toReal|) * E = ((4 * ρ + 20 * f.u) * X + 20 * f.tiny * (1 - |g.toReal|)) / (1 - |g.toReal|) := by rw [hE]; field_simp
    have e2 : 2 * W * ρ + 6 * (f.u * W + f.tiny) + 4 * f.u * W + 3 * f.tiny =
        ((2 * ρ + 10 * f.u) * (2 * X + 66 * f.tiny) + 9 * f.tiny * (1 - |g.toReal|)) / (1 - |g.toReal|) := by rw [hW]; field_simp; ring
    rw [e1, e2]
    refine div_le_div_of_nonneg_right ?_ h1.le
    nlinarith
  have c2 : X / (1 - |g.toReal|) + E + (2 * W * ρ + 6 * (f.u * W + f.tiny)) ≤ W := by
    have e1 : (1 - |g.toReal|) * E ≤ E := by nlinarith
    have e2 : E ≤ (X / 4 + 20 * f.tiny) / (1 - |g.toReal|) := by
      rw [hE, add_div]
      refine add_le_add ?_ le_rfl
      rw [div_le_div_iff₀ (by positivity) h1]
      have := mul_le_mul_of_nonneg_right hg1 (mul_nonneg hX h1.le)
      nlinarith
    have e3 : X / (1 - |g.toReal|) + 2 * ((X / 4 + 20 * f.tiny) / (1 - |g.toReal|)) ≤ W := by
      rw [hW, ← mul_div_assoc, ← add_div]
      exact div_le_div_of_nonneg_right (by linarith) h1.le
    have : 0 ≤ f.u * W := by positivity
    linarith
  have := comb_close hg (by linarith) hx hu hz (fun n => (hb n).1) (fun n => (hb n).2) hlam ?_ c1 c2 (by linarith) (by linarith) n
  · refine ⟨this.1.1, ?_⟩
    unfold fracCombBound
    rw [← hρe, ← hE]
    exact this.2.1
  · intro n hw hc
    let u' : ℕ → Fl L := fun j => if j < n then u j else zero
    obtain ⟨y, hy, hya⟩ := hacc u' fun j => by
      show (if j < n then u j else zero : Fl L).Within W
      split_ifs with hj
      · exact hw j hj
      · exact ⟨zero_finite, by rw [zero_toReal]; simpa using hW0⟩
    have hf' := ((hloop (fun x _ => x) u').2 u' y y).mpr ⟨hy, fun _ => rfl, rfl⟩
    have e : v n = y n := hf.causal hf' fun j hj => (if_pos hj).symm
    rw [e]
    refine ⟨(hya n).1, ?_⟩
    have e2 : interp δ [] (fun n => (u' n).toReal) n = interp δ [] (fun n => (u n).toReal) n := interp_congr hδ1 fun j hj => by
      show (if j < n then u j else zero : Fl L).toReal = _
      rw [if_pos hj]
    have a1 := (hya n).2
    rw [e2] at a1
    have a2 := interp_le hδ1 (n := n) (e := fun k => (u k).toReal - z k) hE0 hc
    rw [← interp_sub] at a2
    have e3 : (y n).toReal - interp δ [] z n = ((y n).toReal - interp δ [] (fun n => (u n).toReal) n) + (interp δ [] (fun n => (u n).toReal) n - interp δ [] z n) := by
      ring
    rw [e3]
    refine (abs_add_le _ _).trans ?_
    linarith

/-- Binary32, feedback 1/2, delays 441 and 441.5 of at most 1000 samples, inputs up to 1: all three meet the hypotheses;
the combs stay within 1/400000 and 1/200. -/
example [Target] (L32 L : Libm binary32) : Allocatable (Fl L) 1000 ∧ ∃ (g : Fl L) (d : Fl L32), g.Finite ∧ g.toReal = 1 / 2 ∧
    16 * binary32.u ≤ 1 - |g.toReal| ∧ (8 * 1 + 48 * binary32.tiny) / (1 - |g.toReal|) ≤ 2 ^ binary32.emax ∧ combBound binary32 g.toReal 1 < 1 / 400000 ∧
    16 * ((1000 + 1 : ℕ) / 2 ^ 22) + 80 * binary32.u ≤ 1 - |g.toReal| ∧ (10 * 1 + 400 * binary32.tiny) / (1 - |g.toReal|) ≤ 2 ^ binary32.emax ∧
    d.Finite ∧ (883 / 2 : ℝ) = max 0 (min d.toReal (1000 : ℕ)) ∧ ClearOf (1000 + 1) (883 / 2) ∧ fracCombBound binary32 g.toReal 1 (1000 + 1) < 1 / 200 := by
  have hrep : IsRep binary32 (883 / 2) := ⟨883, -1, by show |(883 : ℤ)| < 2 ^ 24; norm_num, by show (-149 : ℤ) ≤ -1; norm_num, by norm_num⟩
  have hlim : (2 : ℝ) ^ (127 : ℤ) ≤ 2 ^ binary32.emax := le_rfl
  have hl : (883 / 2 : ℝ) < binary32.lim := lt_of_lt_of_le (by norm_num) (hlim.trans (by unfold Fmt.lim; exact (zpow_lt_zpow_right₀ (by norm_num) (by omega)).le))
  obtain ⟨d, h1, h2⟩ := Fl.exists_of_isRep L32 hrep (by rw [abs_of_pos (by norm_num)]; exact hl)
  have hrep' : IsRep binary32 (1 / 2) := ⟨1, -1, by show |(1 : ℤ)| < 2 ^ 24; norm_num, by show (-149 : ℤ) ≤ -1; norm_num, by norm_num⟩
  obtain ⟨g, h3, h4⟩ := Fl.exists_of_isRep L hrep' (by rw [abs_of_pos (by norm_num)]; linarith)
  have ht : binary32.tiny ≤ 1 / 2 ^ 100 := by
    unfold Fmt.tiny
    show (2 : ℝ) ^ (-149 : ℤ) ≤ _
    norm_num
  have hu : binary32.u = 1 / 2 ^ 24 := rfl
  have hh : |(1 / 2 : ℝ)| = 1 / 2 := abs_of_pos (by norm_num)
  norm_num at hlim ht
  refine ⟨?_, g, d, h3, h4, ?_, ?_, ?_, ?_, ?_, h1, by rw [h2]; norm_num, .inr ?_, ?_⟩
  · unfold Allocatable
    have : size (Fl L) = 4 := rfl
    rw [this]; have := target; omega
  · rw [h4, hh, hu]; norm_num
  · rw [h4, hh]; norm_num; linarith
  · unfold combBound; rw [h4, hh, hu]; norm_num; linarith
  · rw [h4, hh, hu]; norm_num
  · rw [h4, hh]; norm_num; linarith
  · have : ⌊(883 / 2 : ℝ)⌋₊ = 441 := by rw [Nat.floor_eq_iff (by norm_num)]; norm_num
    rw [this]; norm_num
  · unfold fracCombBound; rw [h4, hh, hu]; norm_num; linarith

end Rasp
