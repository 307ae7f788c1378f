import Verif.Lemmas.Kernel
import Verif.Lemmas.CoeffErr
import Verif.Props.PeakGain

/-!
# Rounding errors of a biquad, from the sum of the impulse response of its poles
-/

namespace Rasp
open FloatOps

local macro "pos" : tactic => `(tactic| first | positivity | nlinarith)

/-- A recursion from rest, with perturbations known up to `n`. -/
theorem recursion_sum {a1 a2 K : ℝ} {e : ℕ → ℝ} (he : SolvesDiff 1 0 0 a1 a2 unitImpulse e) (hK : SumBelow e K) {v d : ℕ → ℝ}
    (hv : ∀ n, v n = d n - a1 * lag v 1 n - a2 * lag v 2 n) {B : ℝ} {n : ℕ} (hd : ∀ j ≤ n, |d j| ≤ B) : |v n| ≤ K * B := by
  have hi := rbjStore_implements Biquad2.new 1 0 0 1 a1 a2
  simp only [div_one] at hi
  obtain ⟨h, hh, hc⟩ := hi.isConvolution ⟨true⟩
  have e1 : h = e := hh.unique ((hi _ _ _).mpr he)
  have e2 : v = convolve h d := (hc _ _).mp ((hi _ _ _).mpr fun n => by rw [hv n]; ring)
  have hB : 0 ≤ B := (abs_nonneg _).trans (hd 0 (Nat.zero_le _))
  rw [e2, e1]
  unfold convolve
  refine (Finset.abs_sum_le_sum_abs _ _).trans (le_trans ?_ (mul_le_mul_of_nonneg_right (hK (n + 1)) hB))
  rw [Finset.sum_mul]
  refine Finset.sum_le_sum fun k _ => ?_
  rw [abs_mul]
  exact mul_le_mul_of_nonneg_left (hd _ (Nat.sub_le _ _)) (abs_nonneg _)

/-- As `tracks_of_local`, with the sum `K` instead of the poles. -/
theorem tracks_of_sum {f : Fmt} {L : Libm f} {a1 a2 K : ℝ} {e : ℕ → ℝ} (he : SolvesDiff 1 0 0 a1 a2 unitImpulse e) (hK : SumBelow e K)
    {y : ℕ → Fl L} {z : ℕ → ℝ} {G k X : ℝ} (hG : 0 ≤ G) (hk : 0 ≤ k) (hX : 0 ≤ X)
    (hz : ∀ n, |z n| ≤ G * X) (hprec : 2 * (K * k) ≤ 2 ^ f.p)
    (hov : k * ((2 * G + 2 * (K * k) + 1) * (X + f.tiny)) ≤ 2 ^ f.emax)
    (hloc : ∀ W, f.tiny ≤ W → X ≤ W → k * W ≤ 2 ^ f.emax → ∀ n, (∀ j < n, (y j).Finite ∧ |(y j).toReal| ≤ W) →
      (y n).Finite ∧ |(y n).toReal - z n + a1 * lag (fun i => (y i).toReal - z i) 1 n
        + a2 * lag (fun i => (y i).toReal - z i) 2 n| ≤ k * (f.u * W + f.tiny)) :
    ∀ n, (y n).Finite ∧ |(y n).toReal - z n| ≤ K * k * (2 * G + 3) * (f.u * X + f.tiny) := by
  have hu := f.u_pos
  have hu4 := f.u_le
  have ht := f.tiny_pos
  have hK0 : 0 ≤ K := hK.nonneg
  have hKk : 0 ≤ K * k := mul_nonneg hK0 hk
  have hKu : 2 * (K * k) * f.u ≤ 1 := by
    unfold Fmt.u
    rw [mul_one_div, div_le_one (by positivity)]
    exact hprec
  obtain ⟨M, hM⟩ : ∃ M, M = 2 * (G * X) + 2 * (K * k) * f.tiny + X + f.tiny := ⟨_, rfl⟩
  have hGX : 0 ≤ G * X := mul_nonneg hG hX
  have hKt : 0 ≤ K * k * f.tiny := by positivity
  have hM0 : 0 ≤ M := by rw [hM]; linarith
  have hMt : f.tiny ≤ M := by rw [hM]; linarith
  have hMX : X ≤ M := by rw [hM]; linarith
  have hkM : k * M ≤ 2 ^ f.emax := by
    refine le_trans (mul_le_mul_of_nonneg_left ?_ hk) hov
    rw [hM]
    nlinarith [mul_nonneg hG ht.le, mul_nonneg hKk hX]
  have herr : K * (k * (f.u * M + f.tiny)) ≤ K * k * (2 * G + 3) * (f.u * X + f.tiny) := by
    have e : f.u * M + f.tiny ≤ (2 * G + 3) * (f.u * X + f.tiny) := by
      have e1 : f.u * M = 2 * (G * (f.u * X)) + (2 * (K * k) * f.u) * f.tiny + f.u * X + f.u * f.tiny := by rw [hM]; ring
      have e2 : (2 * (K * k) * f.u) * f.tiny ≤ 1 * f.tiny := mul_le_mul_of_nonneg_right hKu ht.le
      have e3 : f.u * f.tiny ≤ 1 / 4 * f.tiny := mul_le_mul_of_nonneg_right hu4 ht.le
      have e4 : 0 ≤ f.u * X := by positivity
      have e5 : 0 ≤ G * f.tiny := by positivity
      nlinarith
    have := mul_le_mul_of_nonneg_left e hKk
    linarith
  have hM2 : G * X + K * (k * (f.u * M + f.tiny)) ≤ M := by
    have : K * (k * (f.u * M + f.tiny)) = (2 * (K * k) * f.u) * (M / 2) + K * k * f.tiny := by ring
    have e : (2 * (K * k) * f.u) * (M / 2) ≤ 1 * (M / 2) := mul_le_mul_of_nonneg_right hKu (by linarith)
    rw [this]
    linarith
  have key : ∀ n, (y n).Finite ∧ |(y n).toReal| ≤ M ∧ |(y n).toReal - z n| ≤ K * (k * (f.u * M + f.tiny)) := by
    intro n
    induction n using Nat.strong_induction_on with
    | _ n ih =>
      have hl := fun j (hj : j ≤ n) => hloc M hMt hMX hkM j fun i hi => ⟨(ih i (by omega)).1, (ih i (by omega)).2.1⟩
      have he' := recursion_sum he hK (v := fun i => (y i).toReal - z i)
        (d := fun i => (y i).toReal - z i + a1 * lag (fun i => (y i).toReal - z i) 1 i
          + a2 * lag (fun i => (y i).toReal - z i) 2 i) (fun i => by ring) (n := n) (fun j hj => (hl j hj).2)
      refine ⟨(hl n le_rfl).1, ?_, he'⟩
      have := abs_add_le ((y n).toReal - z n) (z n)
      rw [sub_add_cancel] at this
      have := hz n
      linarith
  exact fun n => ⟨(key n).1, (key n).2.2.trans herr⟩

variable {f : Fmt} {L : Libm f}

/-- One step of a cleared `Biquad2`. -/
theorem Biquad2.local_error {s : Biquad2 (Fl L)} (hb0 : s.b0.Finite) (hb1 : s.b1.Finite) (hb2 : s.b2.Finite)
    (ha1 : s.a1.Finite) (ha2 : s.a2.Finite) (hz1 : s.z1.Finite ∧ s.z1.toReal = 0) (hz2 : s.z2.Finite ∧ s.z2.toReal = 0) {b : Build}
    {x y : ℕ → Fl L} {X : ℝ} (hx : ∀ n, (x n).Within X) (hy : Responds b s x y) {W : ℝ} (hW : f.tiny ≤ W) (hXW : X ≤ W)
    (ov : ∀ κ, κ ≤ 16 * (1 + s.size) → κ * W ≤ 2 ^ f.emax) {n : ℕ} (hj : ∀ j < n, (y j).Within W) :
    (y n).Finite ∧ |(y n).toReal - (s.b0.toReal * (x n).toReal + s.b1.toReal * lag (fun i => (x i).toReal) 1 n + s.b2.toReal * lag (fun i => (x i).toReal) 2 n
          - s.a1.toReal * lag (fun i => (y i).toReal) 1 n - s.a2.toReal * lag (fun i => (y i).toReal) 2 n)| ≤ 16 * (1 + s.size) * (f.u * W + f.tiny) := by
  rw [Biquad2.responds_iff] at hy
  unfold Biquad2.size at ov ⊢
  obtain ⟨β0, h0⟩ : ∃ β, β = |s.b0.toReal| := ⟨_, rfl⟩
  obtain ⟨β1, h1⟩ : ∃ β, β = |s.b1.toReal| := ⟨_, rfl⟩
  obtain ⟨β2, h2⟩ : ∃ β, β = |s.b2.toReal| := ⟨_, rfl⟩
  obtain ⟨α1, h3⟩ : ∃ β, β = |s.a1.toReal| := ⟨_, rfl⟩
  obtain ⟨α2, h4⟩ : ∃ β, β = |s.a2.toReal| := ⟨_, rfl⟩
  have p0 : 0 ≤ β0 := h0 ▸ abs_nonneg _
  have p1 : 0 ≤ β1 := h1 ▸ abs_nonneg _
  have p2 : 0 ≤ β2 := h2 ▸ abs_nonneg _
  have p3 : 0 ≤ α1 := h3 ▸ abs_nonneg _
  have p4 : 0 ≤ α2 := h4 ▸ abs_nonneg _
  rw [← h0, ← h1, ← h2, ← h3, ← h4] at ov ⊢
  have hW0 := f.tiny_pos.le.trans hW
  have cb0 : ∀ j, Fl.Near W (β0 + 1) β0 (s.b0 *. x j) (s.b0.toReal * (x j).toReal) := fun j => by
    have := Fl.Near.coeff hb0 (hx j).1 ((hx j).2.trans hXW) (by rw [← h0]; exact ov _ (by linarith))
    rwa [← h0] at this
  have cb1 : ∀ j, Fl.Near W (β1 + 1) β1 (s.b1 *. x j) (s.b1.toReal * (x j).toReal) := fun j => by
    have := Fl.Near.coeff hb1 (hx j).1 ((hx j).2.trans hXW) (by rw [← h1]; exact ov _ (by linarith))
    rwa [← h1] at this
  have cb2 : ∀ j, Fl.Near W (β2 + 1) β2 (s.b2 *. x j) (s.b2.toReal * (x j).toReal) := fun j => by
    have := Fl.Near.coeff hb2 (hx j).1 ((hx j).2.trans hXW) (by rw [← h2]; exact ov _ (by linarith))
    rwa [← h2] at this
  have ca1 : ∀ j < n, Fl.Near W (α1 + 1) α1 (s.a1 *. y j) (s.a1.toReal * (y j).toReal) := fun j h => by
    have := Fl.Near.coeff ha1 (hj j h).1 (hj j h).2 (by rw [← h3]; exact ov _ (by linarith))
    rwa [← h3] at this
  have ca2 : ∀ j < n, Fl.Near W (α2 + 1) α2 (s.a2 *. y j) (s.a2.toReal * (y j).toReal) := fun j h => by
    have := Fl.Near.coeff ha2 (hj j h).1 (hj j h).2 (by rw [← h4]; exact ov _ (by linarith))
    rwa [← h4] at this
  have e := tdf_eq s.b0.toReal s.b1.toReal s.b2.toReal s.a1.toReal s.a2.toReal s.z1.toReal s.z2.toReal
    (fun i => (x i).toReal) (fun i => (y i).toReal) n
  rw [hz1.2, hz2.2, ite_self, ite_self, add_zero] at e
  suffices h : ∃ m, Fl.Near W (16 * (1 + (β0 + β1 + β2 + α1 + α2))) m (y n) (s.b0.toReal * (x n).toReal + s.b1.toReal * lag (fun i => (x i).toReal) 1 n + s.b2.toReal * lag (fun i => (x i).toReal) 2 n
          - s.a1.toReal * lag (fun i => (y i).toReal) 1 n - s.a2.toReal * lag (fun i => (y i).toReal) 2 n) by
    obtain ⟨m, h⟩ := h
    exact ⟨h.1, h.2.1⟩
  have z1 : Fl.Near W 0 1 s.z1 0 := by
    have := Fl.Near.exact (W := W) hz1.1 (by rw [hz1.2]; simpa using hW0)
    rwa [hz1.2] at this
  have z2 : Fl.Near W 0 1 s.z2 0 := by
    have := Fl.Near.exact (W := W) hz2.1 (by rw [hz2.2]; simpa using hW0)
    rwa [hz2.2] at this
  rw [hy n, ← e]
  clear e
  match n with
  | 0 =>
    have m1 := (cb0 0).add z1 hW (by pos) (by pos) (by pos) (by pos)
      (ov _ (by linarith))
    exact ⟨_, m1.le hW0 (by linarith) le_rfl⟩
  | 1 =>
    have m1 := (cb1 0).add z2 hW (by pos) (by pos) (by pos) (by pos)
      (ov _ (by linarith))
    have m2 := m1.sub (ca1 0 (by omega)) hW (by pos) (by pos) (by pos) (by pos) (ov _ (by linarith))
    have m3 := (cb0 1).add m2 hW (by pos) (by pos) (by pos) (by pos) (ov _ (by linarith))
    exact ⟨_, m3.le hW0 (by linarith) le_rfl⟩
  | n + 2 =>
    have m0 := (cb2 n).sub (ca2 n (by omega)) hW (by pos) (by pos) (by pos) (by pos) (ov _ (by linarith))
    have m1 := (cb1 (n + 1)).add m0 hW (by pos) (by pos) (by pos) (by pos) (ov _ (by linarith))
    have m2 := m1.sub (ca1 (n + 1) (by omega)) hW (by pos) (by pos) (by pos) (by pos) (ov _ (by linarith))
    have m3 := (cb0 (n + 2)).add m2 hW (by pos) (by pos) (by pos) (by pos) (ov _ (by linarith))
    exact ⟨_, m3.le hW0 (by linarith) le_rfl⟩

/-- A biquad with coefficients near those of a filter whose poles have an impulse response with sum at most `K`. -/
theorem CoeffsWithin.tracks_sum {s : Biquad2 (Fl L)} {b0 b1 b2 a1 a2 E S X K G κ : ℝ} (hc : CoeffsWithin s b0 b1 b2 a1 a2 E) (hE : 5 * E ≤ 1)
    (hS : |b0| + |b1| + |b2| + |a1| + |a2| ≤ S) (hX : 0 ≤ X) {e : ℕ → ℝ} (he : SolvesDiff 1 0 0 a1 a2 unitImpulse e) (hK : SumBelow e K)
    {τ : Type} [Processor τ ℝ] {r : τ} (hr : Implements r b0 b1 b2 a1 a2) (hG : ∀ b, GainAtMost b r G)
    (hκ : 5 * E + 16 * (2 + S) * f.u ≤ κ * f.u) (hprec : 2 * (K * κ) ≤ 2 ^ f.p)
    (hov : κ * ((2 * G + 2 * (K * κ) + 1) * (X + f.tiny)) ≤ 2 ^ f.emax) :
    Tracks s r X (K * κ * (2 * G + 3) * (f.u * X + f.tiny)) := by
  have hu := f.u_pos
  have ht := f.tiny_pos
  have hE0 : 0 ≤ E := (abs_nonneg _).trans hc.b0.2
  have hS0 : 0 ≤ S := le_trans (by positivity) hS
  have hκS : 16 * (2 + S) ≤ κ := by nlinarith
  have near : ∀ {c b : ℝ}, |c - b| ≤ E → |c| ≤ |b| + E := fun {c b} hcb => by
    have := abs_add_le (c - b) b; rw [sub_add_cancel] at this; linarith
  have hsize : s.size ≤ S + 1 := by
    unfold Biquad2.size
    have := near hc.b0.2; have := near hc.b1.2; have := near hc.b2.2; have := near hc.a1.2; have := near hc.a2.2
    linarith
  have np : NeverPanics (Biquad2 (Fl L)) (T := Fl L) := fun _ _ _ => ⟨_, _, rfl⟩
  refine ⟨fun b x => np.responds b s x, fun b x => hr.from.total b x, ?_⟩
  intro b x y z hx hy hz
  have hz' := (hr b _ _).mp hz
  refine tracks_of_sum he hK (hG b).nonneg (by linarith) hX ((hG b).level hz fun n => (hx n).2) hprec hov ?_
  intro W hW hXW hkW n hj
  have hW0 := ht.le.trans hW
  have ov : ∀ k, k ≤ 16 * (1 + s.size) → k * W ≤ 2 ^ f.emax := fun k hk =>
    (mul_le_mul_of_nonneg_right (by linarith) hW0).trans hkW
  obtain ⟨hf, hl⟩ := Biquad2.local_error hc.b0.1 hc.b1.1 hc.b2.1 hc.a1.1 hc.a2.1 hc.z1 hc.z2 hx hy hW hXW ov hj
  refine ⟨hf, ?_⟩
  have hxl : ∀ k, |lag (fun i => (x i).toReal) k n| ≤ W := fun k => (abs_lag_le hX (fun n => (hx n).2) k n).trans hXW
  have hyl : ∀ k, 1 ≤ k → |lag (fun i => (y i).toReal) k n| ≤ W := fun k hk => by
    simp only [lag, real_zero]
    split_ifs
    · exact (hj _ (by omega)).2
    · simpa using hW0
  have q0 := mul_le_mul hc.b0.2 ((hx n).2.trans hXW) (abs_nonneg _) hE0
  have q1 := mul_le_mul hc.b1.2 (hxl 1) (abs_nonneg _) hE0
  have q2 := mul_le_mul hc.b2.2 (hxl 2) (abs_nonneg _) hE0
  have q3 := mul_le_mul hc.a1.2 (hyl 1 le_rfl) (abs_nonneg _) hE0
  have q4 := mul_le_mul hc.a2.2 (hyl 2 (by norm_num)) (abs_nonneg _) hE0
  rw [← abs_mul] at q0 q1 q2 q3 q4
  have hlast : 16 * (1 + s.size) * (f.u * W + f.tiny) ≤ 16 * (2 + S) * (f.u * W + f.tiny) :=
    mul_le_mul_of_nonneg_right (by linarith) (by positivity)
  have hw := mul_le_mul_of_nonneg_right hκ hW0
  have ht2 := mul_le_mul_of_nonneg_right hκS ht.le
  rw [hz' n, lag_sub_real, lag_sub_real]
  generalize lag (fun i => (x i).toReal) 1 n = x1 at *
  generalize lag (fun i => (x i).toReal) 2 n = x2 at *
  generalize lag (fun i => (y i).toReal) 1 n = y1 at *
  generalize lag (fun i => (y i).toReal) 2 n = y2 at *
  rw [abs_le] at hl q0 q1 q2 q3 q4 ⊢
  constructor
  · linarith [hl.1, q0.1, q1.1, q2.1, q3.2, q4.2]
  · linarith [hl.2, q0.2, q1.2, q2.2, q3.1, q4.1]

end Rasp
