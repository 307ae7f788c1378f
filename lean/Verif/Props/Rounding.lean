import Verif.Lemmas.RoundErr
import Verif.Lemmas.Rbj
import Verif.Lemmas.Recur

/-!
# C73 Stable filters in floating-point arithmetic stay close to exact arithmetic

All statements are in IEEE arithmetic (any format, any math library). `Q = (1 + S) / ((1 - |p|)(1 - |q|))` with the sum
`S` of the coefficients' magnitudes and the poles `p`, `q`. If the format has enough precision and range for `Q`
and the input level `X` (`FitsFormat`), then on streams of any length the outputs are finite and differ from the
outputs of the same filter in exact arithmetic by at most `112 Q² (2^-p X + 2^emin)`.
-/

namespace Rasp
open FloatOps

/-! ## The same filter in exact arithmetic -/

section exact
variable {f : Fmt} {L : Libm f}

noncomputable def OnePole.exact (s : OnePole (Fl L)) : OnePole ℝ := ⟨s.y_z1.toReal, s.b0.toReal, s.a1.toReal⟩
noncomputable def OneZero.exact (s : OneZero (Fl L)) : OneZero ℝ :=
  ⟨s.x_z1.toReal, s.output.toReal, s.b0.toReal, s.b1.toReal⟩
noncomputable def TwoPole.exact (s : TwoPole (Fl L)) : TwoPole ℝ :=
  ⟨s.y_z1.toReal, s.y_z2.toReal, s.b0.toReal, s.a1.toReal, s.a2.toReal⟩
noncomputable def TwoZero.exact (s : TwoZero (Fl L)) : TwoZero ℝ :=
  ⟨s.x_z1.toReal, s.x_z2.toReal, s.output.toReal, s.b0.toReal, s.b1.toReal, s.b2.toReal⟩
noncomputable def Biquad1.exact (s : Biquad1 (Fl L)) : Biquad1 ℝ :=
  ⟨s.x_z1.toReal, s.x_z2.toReal, s.y_z1.toReal, s.y_z2.toReal, s.b0.toReal, s.b1.toReal, s.b2.toReal, s.a1.toReal, s.a2.toReal⟩
noncomputable def Biquad2.exact (s : Biquad2 (Fl L)) : Biquad2 ℝ :=
  ⟨s.z1.toReal, s.z2.toReal, s.output.toReal, s.b0.toReal, s.b1.toReal, s.b2.toReal, s.a1.toReal, s.a2.toReal⟩

end exact

/-! ## From one step to the whole stream -/

theorem df_eq (b0 b1 b2 a1 a2 x1 x2 y1 y2 : ℝ) (x y : ℕ → ℝ) (n : ℕ) :
    b0 * x n + b1 * before x1 x n + b2 * before x2 (before x1 x) n - a1 * before y1 y n - a2 * before y2 (before y1 y) n
    = b0 * x n + b1 * lag x 1 n + b2 * lag x 2 n - a1 * lag y 1 n - a2 * lag y 2 n
      + (if n = 0 then b1 * x1 + b2 * x2 - a1 * y1 - a2 * y2 else if n = 1 then b2 * x1 - a2 * y1 else 0) := by
  match n with
  | 0 => simp [before]; ring
  | 1 => simp [before, lag]; ring
  | n + 2 => simp [before]

theorem tdf_eq (b0 b1 b2 a1 a2 z1 z2 : ℝ) (x y : ℕ → ℝ) (n : ℕ) :
    b0 * x n + before z1 (fun m => b1 * x m + before z2 (fun k => b2 * x k - a2 * y k) m - a1 * y m) n
    = b0 * x n + b1 * lag x 1 n + b2 * lag x 2 n - a1 * lag y 1 n - a2 * lag y 2 n
      + (if n = 0 then z1 else if n = 1 then z2 else 0) := by
  match n with
  | 0 => simp [before]
  | 1 => simp [before, lag]; ring
  | n + 2 => simp [before]; ring

section general
variable {f : Fmt} {L : Libm f}

theorem toReal_before (a : Fl L) (x : ℕ → Fl L) (n : ℕ) :
    (before a x n).toReal = before a.toReal (fun i => (x i).toReal) n := by cases n <;> rfl

theorem lag_sub_real (x y : ℕ → ℝ) (k n : ℕ) : lag (fun i => x i - y i) k n = lag x k n - lag y k n := by
  simp only [lag, real_zero]; split_ifs <;> ring

theorem abs_lag_le {x : ℕ → ℝ} {X : ℝ} (hX : 0 ≤ X) (hx : ∀ n, |x n| ≤ X) (k n : ℕ) : |lag x k n| ≤ X := by
  simp only [lag, real_zero]; split_ifs
  · exact hx _
  · simpa using hX

/-- The last two values before time `n` are within `W`. -/
theorem before_within {W : ℝ} {a : Fl L} {y : ℕ → Fl L} {n : ℕ} (ha : a.Within W) (hy : ∀ j < n, (y j).Within W) :
    (before a y n).Within W := by
  cases n with
  | zero => exact ha
  | succ n => exact hy n (Nat.lt_succ_self n)

theorem before2_within {W : ℝ} {a c : Fl L} {y : ℕ → Fl L} {n : ℕ} (ha : a.Within W) (hc : c.Within W)
    (hy : ∀ j < n, (y j).Within W) : (before c (before a y) n).Within W := by
  match n with
  | 0 => exact hc
  | 1 => exact ha
  | n + 2 => exact hy n (by omega)

theorem Fl.Within.le {X W : ℝ} {v : Fl L} (h : v.Within X) (hW : X ≤ W) : v.Within W := ⟨h.1, h.2.trans hW⟩

/-- The local error of one step, for a filter with the difference equation `b0 … a2` and leftovers `c0`, `c1`. -/
theorem tracks_of_near {b0 b1 b2 a1 a2 c0 c1 S X : ℝ} {p q : ℂ} (hpq : StablePoles a1 a2 p q)
    (hS : S = |b0| + |b1| + |b2| + |a1| + |a2|) (hX : 0 ≤ X) (hfit : FitsFormat f (errGain S p q) X)
    (hc0 : |c0| ≤ (1 + S) * X) (hc1 : |c1| ≤ (1 + S) * X) {x y : ℕ → Fl L} {z : ℕ → ℝ} (hx : ∀ n, (x n).Within X)
    (hz : SolvesDiffFrom c0 c1 b0 b1 b2 a1 a2 (fun n => (x n).toReal) z)
    (hloc : ∀ W, f.tiny ≤ W → X ≤ W → (∀ κ, κ ≤ 16 * (1 + S) → κ * W ≤ 2 ^ f.emax) → ∀ n,
      (∀ j < n, (y j).Within W) → ∃ m, Fl.Near W (16 * (1 + S)) m (y n)
        (b0 * (x n).toReal + b1 * lag (fun i => (x i).toReal) 1 n + b2 * lag (fun i => (x i).toReal) 2 n
          - a1 * lag (fun i => (y i).toReal) 1 n - a2 * lag (fun i => (y i).toReal) 2 n
          + (if n = 0 then c0 else if n = 1 then c1 else 0))) :
    ∀ n, (y n).Finite ∧ |(y n).toReal - z n| ≤ errBound f (errGain S p q) X := by
  have h1 : 0 < 1 - ‖p‖ := by have := hpq.hp; linarith
  have h2 : 0 < 1 - ‖q‖ := by have := hpq.hq; linarith
  have hS0 : 0 ≤ S := by rw [hS]; positivity
  obtain ⟨K, hK⟩ : ∃ K, K = 1 / ((1 - ‖p‖) * (1 - ‖q‖)) := ⟨_, rfl⟩
  have hK1 : 1 ≤ K := by
    rw [hK, le_div_iff₀ (by positivity)]
    nlinarith [norm_nonneg p, norm_nonneg q]
  have hQ : errGain S p q = K * (1 + S) := by rw [hK]; unfold errGain; ring
  obtain ⟨Q, hQ'⟩ : ∃ Q, Q = K * (1 + S) := ⟨_, rfl⟩
  have hQ1 : 1 + S ≤ Q := by rw [hQ']; nlinarith
  have hXt : 0 ≤ X + f.tiny := by have := f.tiny_pos; linarith
  have hu := f.u_pos
  have ht := f.tiny_pos
  rw [hQ, ← hQ'] at hfit ⊢
  have hxr : ∀ n, |(x n).toReal| ≤ X := fun n => (hx n).2
  -- size of the exact response
  have hzb : ∀ n, |z n| ≤ (2 * Q) * X := by
    intro n
    have hw : ∀ j ≤ n, |b0 * (x j).toReal + b1 * lag (fun i => (x i).toReal) 1 j + b2 * lag (fun i => (x i).toReal) 2 j
        + (if j = 0 then c0 else if j = 1 then c1 else 0)| ≤ 2 * ((1 + S) * X) := by
      intro j _
      have hl : ∀ (c : ℝ) k, |c * lag (fun i => (x i).toReal) k j| ≤ |c| * X := fun c k => by
        rw [abs_mul]; exact mul_le_mul_of_nonneg_left (abs_lag_le hX hxr k j) (abs_nonneg _)
      have e0 : |b0 * (x j).toReal| ≤ |b0| * X := by
        rw [abs_mul]; exact mul_le_mul_of_nonneg_left (hxr j) (abs_nonneg _)
      have ec : |(if j = 0 then c0 else if j = 1 then c1 else 0 : ℝ)| ≤ (1 + S) * X := by
        split_ifs
        · exact hc0
        · exact hc1
        · simp; positivity
      have := hl b1 1; have := hl b2 2
      have t1 := abs_add_le (b0 * (x j).toReal + b1 * lag (fun i => (x i).toReal) 1 j + b2 * lag (fun i => (x i).toReal) 2 j)
        (if j = 0 then c0 else if j = 1 then c1 else 0)
      have t2 := abs_add_three (b0 * (x j).toReal) (b1 * lag (fun i => (x i).toReal) 1 j) (b2 * lag (fun i => (x i).toReal) 2 j)
      have t3 : |b0| * X + |b1| * X + |b2| * X ≤ (1 + S) * X := by
        rw [hS]; nlinarith [abs_nonneg a1, abs_nonneg a2, mul_nonneg (abs_nonneg a1) hX, mul_nonneg (abs_nonneg a2) hX]
      linarith
    have := recursion_error hpq.sum hpq.prod hpq.hp hpq.hq (e := z) (fun n => by rw [hz n]; ring) hw
    refine this.trans (le_of_eq ?_)
    rw [hQ', hK]; ring
  have hmain := tracks_of_local hpq.sum hpq.prod hpq.hp hpq.hq (y := y) (z := z) (G := 2 * Q) (k := 16 * (1 + S)) (X := X) (K := K)
    (by linarith) (by linarith) hX hK hzb (by have := hfit.prec; rw [hQ'] at this; linarith)
    (by
      refine le_trans ?_ hfit.range
      have e1 : K * (16 * (1 + S)) = 16 * Q := by rw [hQ']; ring
      rw [e1]
      have e2 : 16 * (1 + S) * ((2 * (2 * Q) + 2 * (16 * Q) + 1) * (X + f.tiny))
          = (16 * (1 + S) * (36 * Q + 1)) * (X + f.tiny) := by ring
      rw [e2]
      apply mul_le_mul_of_nonneg_right _ hXt
      nlinarith)
    (by
      intro W hW hXW hkW n hj
      have hW0 : 0 ≤ W := ht.le.trans hW
      obtain ⟨m, hn⟩ := hloc W hW hXW (fun κ hκ => (mul_le_mul_of_nonneg_right hκ hW0).trans hkW) n hj
      refine ⟨hn.1, ?_⟩
      have := hn.2.1
      convert this using 2
      rw [hz n, lag_sub_real, lag_sub_real]
      ring)
  intro n
  refine ⟨(hmain n).1, (hmain n).2.trans ?_⟩
  unfold errBound
  apply mul_le_mul_of_nonneg_right _ (by positivity)
  have : K * (16 * (1 + S)) * (2 * (2 * Q) + 3) = 16 * Q * (4 * Q + 3) := by rw [hQ']; ring
  rw [this]
  nlinarith

/-! ## The six filter types -/

local macro "pos" : tactic => `(tactic| first | positivity | nlinarith)

theorem abs_leftover {X c v : ℝ} (h : |v| ≤ X) : |c * v| ≤ |c| * X := by
  rw [abs_mul]; exact mul_le_mul_of_nonneg_left h (abs_nonneg _)

/-- C73, OnePole. -/
theorem C73_onePole {s : OnePole (Fl L)} {X : ℝ} {p : ℂ} (hb0 : s.b0.Finite) (ha1 : s.a1.Finite) (hm : s.y_z1.Within X)
    (hp : StablePoles s.a1.toReal 0 p 0) (hfit : FitsFormat f (errGain (|s.b0.toReal| + |s.a1.toReal|) p 0) X) :
    Tracks s s.exact X (errBound f (errGain (|s.b0.toReal| + |s.a1.toReal|) p 0) X) := by
  refine tracks_of (fun _ _ _ => ⟨_, _, rfl⟩) (fun _ _ _ => ⟨_, _, rfl⟩) ?_
  intro b x y z hx hy hz
  have hX : 0 ≤ X := (abs_nonneg _).trans hm.2
  rw [OnePole.responds_iff] at hy
  have hz' := ((OnePole.implementsFrom s.exact) b _ z).mp hz
  simp only [OnePole.exact] at hz'
  obtain ⟨β0, h0⟩ : ∃ β, β = |s.b0.toReal| := ⟨_, rfl⟩
  obtain ⟨α1, h1⟩ : ∃ β, β = |s.a1.toReal| := ⟨_, rfl⟩
  have p0 : 0 ≤ β0 := h0 ▸ abs_nonneg _
  have p1 : 0 ≤ α1 := h1 ▸ abs_nonneg _
  have l1 := abs_leftover (c := s.a1.toReal) hm.2
  rw [← h0, ← h1] at hfit ⊢
  rw [← h1] at l1
  refine tracks_of_near hp (by simp [h0, h1]) hX hfit ?_ ?_ hx hz' ?_
  · rw [abs_neg]; nlinarith
  · simp; positivity
  · intro W hW hXW ov n hj
    have n0 := Fl.Near.coeff hb0 (hx n).1 ((hx n).2.trans hXW) (by rw [← h0]; exact ov _ (by linarith))
    have w1 := before_within (hm.le hXW) hj
    have n1 := Fl.Near.coeff ha1 w1.1 w1.2 (by rw [← h1]; exact ov _ (by linarith))
    rw [← h0] at n0
    rw [← h1] at n1
    have n2 := (n0.sub n1 hW (by pos) (by pos) (by pos) (by pos) (ov _ (by linarith))).le (f.tiny_pos.le.trans hW)
      (k' := 16 * (1 + (β0 + α1))) (by linarith) le_rfl
    refine ⟨β0 + α1, ?_⟩
    rw [hy n]
    rw [toReal_before] at n2
    convert n2 using 1
    have := df_eq s.b0.toReal 0 0 s.a1.toReal 0 0 0 s.y_z1.toReal 0 (fun i => (x i).toReal) (fun i => (y i).toReal) n
    simp only [zero_mul, add_zero, sub_zero, zero_sub] at this ⊢
    rw [this]

/-- C73, OneZero. -/
theorem C73_oneZero {s : OneZero (Fl L)} {X : ℝ} (hb0 : s.b0.Finite) (hb1 : s.b1.Finite) (hm : s.x_z1.Within X)
    (hfit : FitsFormat f (errGain (|s.b0.toReal| + |s.b1.toReal|) 0 0) X) :
    Tracks s s.exact X (errBound f (errGain (|s.b0.toReal| + |s.b1.toReal|) 0 0) X) := by
  refine tracks_of (fun _ _ _ => ⟨_, _, rfl⟩) (fun _ _ _ => ⟨_, _, rfl⟩) ?_
  intro b x y z hx hy hz
  have hX : 0 ≤ X := (abs_nonneg _).trans hm.2
  rw [OneZero.responds_iff] at hy
  have hz' := ((OneZero.implementsFrom s.exact) b _ z).mp hz
  simp only [OneZero.exact] at hz'
  obtain ⟨β0, h0⟩ : ∃ β, β = |s.b0.toReal| := ⟨_, rfl⟩
  obtain ⟨β1, h1⟩ : ∃ β, β = |s.b1.toReal| := ⟨_, rfl⟩
  have p0 : 0 ≤ β0 := h0 ▸ abs_nonneg _
  have p1 : 0 ≤ β1 := h1 ▸ abs_nonneg _
  have l1 := abs_leftover (c := s.b1.toReal) hm.2
  rw [← h0, ← h1] at hfit ⊢
  rw [← h1] at l1
  refine tracks_of_near ⟨by simp, by simp, by simp, by simp⟩ (by simp [h0, h1]) hX hfit ?_ ?_ hx hz' ?_
  · nlinarith
  · simp; positivity
  · intro W hW hXW ov n hj
    have n0 := Fl.Near.coeff hb0 (hx n).1 ((hx n).2.trans hXW) (by rw [← h0]; exact ov _ (by linarith))
    have w1 := before_within (n := n) (hm.le hXW) (fun j _ => (hx j).le hXW)
    have n1 := Fl.Near.coeff hb1 w1.1 w1.2 (by rw [← h1]; exact ov _ (by linarith))
    rw [← h0] at n0
    rw [← h1] at n1
    have n2 := (n0.add n1 hW (by pos) (by pos) (by pos) (by pos) (ov _ (by linarith))).le (f.tiny_pos.le.trans hW)
      (k' := 16 * (1 + (β0 + β1))) (by linarith) le_rfl
    refine ⟨β0 + β1, ?_⟩
    rw [hy n]
    rw [toReal_before] at n2
    convert n2 using 1
    have := df_eq s.b0.toReal s.b1.toReal 0 0 0 s.x_z1.toReal 0 0 0 (fun i => (x i).toReal) (fun i => (y i).toReal) n
    simp only [zero_mul, add_zero, sub_zero] at this ⊢
    rw [this]

/-- C73, TwoPole. -/
theorem C73_twoPole {s : TwoPole (Fl L)} {X : ℝ} {p q : ℂ} (hb0 : s.b0.Finite) (ha1 : s.a1.Finite) (ha2 : s.a2.Finite)
    (hm1 : s.y_z1.Within X) (hm2 : s.y_z2.Within X) (hpq : StablePoles s.a1.toReal s.a2.toReal p q)
    (hfit : FitsFormat f (errGain (|s.b0.toReal| + |s.a1.toReal| + |s.a2.toReal|) p q) X) :
    Tracks s s.exact X (errBound f (errGain (|s.b0.toReal| + |s.a1.toReal| + |s.a2.toReal|) p q) X) := by
  refine tracks_of (fun _ _ _ => ⟨_, _, rfl⟩) (fun _ _ _ => ⟨_, _, rfl⟩) ?_
  intro b x y z hx hy hz
  have hX : 0 ≤ X := (abs_nonneg _).trans hm1.2
  rw [TwoPole.responds_iff] at hy
  have hz' := ((TwoPole.implementsFrom s.exact) b _ z).mp hz
  simp only [TwoPole.exact] at hz'
  obtain ⟨β0, h0⟩ : ∃ β, β = |s.b0.toReal| := ⟨_, rfl⟩
  obtain ⟨α1, h1⟩ : ∃ β, β = |s.a1.toReal| := ⟨_, rfl⟩
  obtain ⟨α2, h2⟩ : ∃ β, β = |s.a2.toReal| := ⟨_, rfl⟩
  have p0 : 0 ≤ β0 := h0 ▸ abs_nonneg _
  have p1 : 0 ≤ α1 := h1 ▸ abs_nonneg _
  have p2 : 0 ≤ α2 := h2 ▸ abs_nonneg _
  have l1 := abs_leftover (c := s.a1.toReal) hm1.2
  have l2 := abs_leftover (c := s.a2.toReal) hm2.2
  have l3 := abs_leftover (c := s.a2.toReal) hm1.2
  rw [← h0, ← h1, ← h2] at hfit ⊢
  rw [← h1] at l1
  rw [← h2] at l2 l3
  refine tracks_of_near hpq (by simp [h0, h1, h2]) hX hfit ?_ ?_ hx hz' ?_
  · have := abs_sub (-(s.a1.toReal * s.y_z1.toReal)) (s.a2.toReal * s.y_z2.toReal)
    rw [abs_neg] at this; nlinarith [mul_nonneg p0 hX]
  · rw [abs_neg]; nlinarith [mul_nonneg p0 hX, mul_nonneg p1 hX]
  · intro W hW hXW ov n hj
    have n0 := Fl.Near.coeff hb0 (hx n).1 ((hx n).2.trans hXW) (by rw [← h0]; exact ov _ (by linarith))
    have w1 := before_within (hm1.le hXW) hj
    have w2 := before2_within (hm1.le hXW) (hm2.le hXW) hj
    have n1 := Fl.Near.coeff ha1 w1.1 w1.2 (by rw [← h1]; exact ov _ (by linarith))
    have n2 := Fl.Near.coeff ha2 w2.1 w2.2 (by rw [← h2]; exact ov _ (by linarith))
    rw [← h0] at n0
    rw [← h1] at n1
    rw [← h2] at n2
    have n3 := n0.sub n1 hW (by pos) (by pos) (by pos) (by pos) (ov _ (by linarith))
    have n4 := (n3.sub n2 hW (by pos) (by pos) (by pos) (by pos) (ov _ (by linarith))).le (f.tiny_pos.le.trans hW)
      (k' := 16 * (1 + (β0 + α1 + α2))) (by linarith) le_rfl
    refine ⟨β0 + α1 + α2, ?_⟩
    rw [hy n]
    rw [toReal_before, toReal_before, funext (toReal_before _ _)] at n4
    convert n4 using 1
    have := df_eq s.b0.toReal 0 0 s.a1.toReal s.a2.toReal 0 0 s.y_z1.toReal s.y_z2.toReal (fun i => (x i).toReal)
      (fun i => (y i).toReal) n
    simp only [zero_mul, add_zero, zero_sub] at this ⊢
    rw [this]

/-- C73, TwoZero. -/
theorem C73_twoZero {s : TwoZero (Fl L)} {X : ℝ} (hb0 : s.b0.Finite) (hb1 : s.b1.Finite) (hb2 : s.b2.Finite)
    (hm1 : s.x_z1.Within X) (hm2 : s.x_z2.Within X)
    (hfit : FitsFormat f (errGain (|s.b0.toReal| + |s.b1.toReal| + |s.b2.toReal|) 0 0) X) :
    Tracks s s.exact X (errBound f (errGain (|s.b0.toReal| + |s.b1.toReal| + |s.b2.toReal|) 0 0) X) := by
  refine tracks_of (fun _ _ _ => ⟨_, _, rfl⟩) (fun _ _ _ => ⟨_, _, rfl⟩) ?_
  intro b x y z hx hy hz
  have hX : 0 ≤ X := (abs_nonneg _).trans hm1.2
  rw [TwoZero.responds_iff] at hy
  have hz' := ((TwoZero.implementsFrom s.exact) b _ z).mp hz
  simp only [TwoZero.exact] at hz'
  obtain ⟨β0, h0⟩ : ∃ β, β = |s.b0.toReal| := ⟨_, rfl⟩
  obtain ⟨β1, h1⟩ : ∃ β, β = |s.b1.toReal| := ⟨_, rfl⟩
  obtain ⟨β2, h2⟩ : ∃ β, β = |s.b2.toReal| := ⟨_, rfl⟩
  have p0 : 0 ≤ β0 := h0 ▸ abs_nonneg _
  have p1 : 0 ≤ β1 := h1 ▸ abs_nonneg _
  have p2 : 0 ≤ β2 := h2 ▸ abs_nonneg _
  have l1 := abs_leftover (c := s.b1.toReal) hm1.2
  have l2 := abs_leftover (c := s.b2.toReal) hm2.2
  have l3 := abs_leftover (c := s.b2.toReal) hm1.2
  rw [← h0, ← h1, ← h2] at hfit ⊢
  rw [← h1] at l1
  rw [← h2] at l2 l3
  refine tracks_of_near ⟨by simp, by simp, by simp, by simp⟩ (by simp [h0, h1, h2]) hX hfit ?_ ?_ hx hz' ?_
  · have := abs_add_le (s.b1.toReal * s.x_z1.toReal) (s.b2.toReal * s.x_z2.toReal)
    nlinarith [mul_nonneg p0 hX]
  · nlinarith [mul_nonneg p0 hX, mul_nonneg p1 hX]
  · intro W hW hXW ov n hj
    have hxW : ∀ j < n, (x j).Within W := fun j _ => (hx j).le hXW
    have n0 := Fl.Near.coeff hb0 (hx n).1 ((hx n).2.trans hXW) (by rw [← h0]; exact ov _ (by linarith))
    have w1 := before_within (hm1.le hXW) hxW
    have w2 := before2_within (hm1.le hXW) (hm2.le hXW) hxW
    have n1 := Fl.Near.coeff hb1 w1.1 w1.2 (by rw [← h1]; exact ov _ (by linarith))
    have n2 := Fl.Near.coeff hb2 w2.1 w2.2 (by rw [← h2]; exact ov _ (by linarith))
    rw [← h0] at n0
    rw [← h1] at n1
    rw [← h2] at n2
    have n3 := n0.add n1 hW (by pos) (by pos) (by pos) (by pos) (ov _ (by linarith))
    have n4 := (n3.add n2 hW (by pos) (by pos) (by pos) (by pos) (ov _ (by linarith))).le (f.tiny_pos.le.trans hW)
      (k' := 16 * (1 + (β0 + β1 + β2))) (by linarith) le_rfl
    refine ⟨β0 + β1 + β2, ?_⟩
    rw [hy n]
    rw [toReal_before, toReal_before, funext (toReal_before _ _)] at n4
    convert n4 using 1
    have := df_eq s.b0.toReal s.b1.toReal s.b2.toReal 0 0 s.x_z1.toReal s.x_z2.toReal 0 0 (fun i => (x i).toReal)
      (fun i => (y i).toReal) n
    simp only [zero_mul, sub_zero] at this ⊢
    rw [this]

/-- Sum of the coefficients' magnitudes. -/
noncomputable def Biquad1.size (s : Biquad1 (Fl L)) : ℝ :=
  |s.b0.toReal| + |s.b1.toReal| + |s.b2.toReal| + |s.a1.toReal| + |s.a2.toReal|
noncomputable def Biquad2.size (s : Biquad2 (Fl L)) : ℝ :=
  |s.b0.toReal| + |s.b1.toReal| + |s.b2.toReal| + |s.a1.toReal| + |s.a2.toReal|

/-- C73, Biquad1. -/
theorem C73_biquad1 {s : Biquad1 (Fl L)} {X : ℝ} {p q : ℂ} (hb0 : s.b0.Finite) (hb1 : s.b1.Finite) (hb2 : s.b2.Finite)
    (ha1 : s.a1.Finite) (ha2 : s.a2.Finite) (hx1 : s.x_z1.Within X) (hx2 : s.x_z2.Within X) (hy1 : s.y_z1.Within X)
    (hy2 : s.y_z2.Within X) (hpq : StablePoles s.a1.toReal s.a2.toReal p q) (hfit : FitsFormat f (errGain s.size p q) X) :
    Tracks s s.exact X (errBound f (errGain s.size p q) X) := by
  refine tracks_of (fun _ _ _ => ⟨_, _, rfl⟩) (fun _ _ _ => ⟨_, _, rfl⟩) ?_
  intro b x y z hx hy hz
  have hX : 0 ≤ X := (abs_nonneg _).trans hx1.2
  rw [Biquad1.responds_iff] at hy
  have hz' := ((Biquad1.implementsFrom s.exact) b _ z).mp hz
  simp only [Biquad1.exact] at hz'
  unfold Biquad1.size at hfit ⊢
  obtain ⟨β0, h0⟩ : ∃ β, β = |s.b0.toReal| := ⟨_, rfl⟩
  obtain ⟨β1, h1⟩ : ∃ β, β = |s.b1.toReal| := ⟨_, rfl⟩
  obtain ⟨β2, h2⟩ : ∃ β, β = |s.b2.toReal| := ⟨_, rfl⟩
  obtain ⟨α1, h3⟩ : ∃ β, β = |s.a1.toReal| := ⟨_, rfl⟩
  obtain ⟨α2, h4⟩ : ∃ β, β = |s.a2.toReal| := ⟨_, rfl⟩
  have p0 : 0 ≤ β0 := h0 ▸ abs_nonneg _
  have p1 : 0 ≤ β1 := h1 ▸ abs_nonneg _
  have p2 : 0 ≤ β2 := h2 ▸ abs_nonneg _
  have p3 : 0 ≤ α1 := h3 ▸ abs_nonneg _
  have p4 : 0 ≤ α2 := h4 ▸ abs_nonneg _
  have l1 := abs_leftover (c := s.b1.toReal) hx1.2
  have l2 := abs_leftover (c := s.b2.toReal) hx2.2
  have l3 := abs_leftover (c := s.b2.toReal) hx1.2
  have l4 := abs_leftover (c := s.a1.toReal) hy1.2
  have l5 := abs_leftover (c := s.a2.toReal) hy2.2
  have l6 := abs_leftover (c := s.a2.toReal) hy1.2
  rw [← h0, ← h1, ← h2, ← h3, ← h4] at hfit ⊢
  rw [← h1] at l1
  rw [← h2] at l2 l3
  rw [← h3] at l4
  rw [← h4] at l5 l6
  refine tracks_of_near hpq (by simp [h0, h1, h2, h3, h4]) hX hfit ?_ ?_ hx hz' ?_
  · have t1 := abs_sub (s.b1.toReal * s.x_z1.toReal + s.b2.toReal * s.x_z2.toReal - s.a1.toReal * s.y_z1.toReal)
      (s.a2.toReal * s.y_z2.toReal)
    have t2 := abs_sub (s.b1.toReal * s.x_z1.toReal + s.b2.toReal * s.x_z2.toReal) (s.a1.toReal * s.y_z1.toReal)
    have t3 := abs_add_le (s.b1.toReal * s.x_z1.toReal) (s.b2.toReal * s.x_z2.toReal)
    nlinarith [mul_nonneg p0 hX]
  · have t1 := abs_sub (s.b2.toReal * s.x_z1.toReal) (s.a2.toReal * s.y_z1.toReal)
    nlinarith [mul_nonneg p0 hX, mul_nonneg p1 hX, mul_nonneg p3 hX]
  · intro W hW hXW ov n hj
    have hxW : ∀ j < n, (x j).Within W := fun j _ => (hx j).le hXW
    have n0 := Fl.Near.coeff hb0 (hx n).1 ((hx n).2.trans hXW) (by rw [← h0]; exact ov _ (by linarith))
    have w1 := before_within (hx1.le hXW) hxW
    have w2 := before2_within (hx1.le hXW) (hx2.le hXW) hxW
    have w3 := before_within (hy1.le hXW) hj
    have w4 := before2_within (hy1.le hXW) (hy2.le hXW) hj
    have n1 := Fl.Near.coeff hb1 w1.1 w1.2 (by rw [← h1]; exact ov _ (by linarith))
    have n2 := Fl.Near.coeff hb2 w2.1 w2.2 (by rw [← h2]; exact ov _ (by linarith))
    have n3 := Fl.Near.coeff ha1 w3.1 w3.2 (by rw [← h3]; exact ov _ (by linarith))
    have n4 := Fl.Near.coeff ha2 w4.1 w4.2 (by rw [← h4]; exact ov _ (by linarith))
    rw [← h0] at n0
    rw [← h1] at n1
    rw [← h2] at n2
    rw [← h3] at n3
    rw [← h4] at n4
    have m1 := n0.add n1 hW (by pos) (by pos) (by pos) (by pos) (ov _ (by linarith))
    have m2 := m1.add n2 hW (by pos) (by pos) (by pos) (by pos) (ov _ (by linarith))
    have m3 := m2.sub n3 hW (by pos) (by pos) (by pos) (by pos) (ov _ (by linarith))
    have m4 := (m3.sub n4 hW (by pos) (by pos) (by pos) (by pos) (ov _ (by linarith))).le (f.tiny_pos.le.trans hW)
      (k' := 16 * (1 + (β0 + β1 + β2 + α1 + α2))) (by linarith) le_rfl
    refine ⟨β0 + β1 + β2 + α1 + α2, ?_⟩
    rw [hy n]
    simp only [toReal_before] at m4
    convert m4 using 1
    have := df_eq s.b0.toReal s.b1.toReal s.b2.toReal s.a1.toReal s.a2.toReal s.x_z1.toReal s.x_z2.toReal s.y_z1.toReal
      s.y_z2.toReal (fun i => (x i).toReal) (fun i => (y i).toReal) n
    exact this.symm

/-- C73, Biquad2. -/
theorem C73_biquad2 {s : Biquad2 (Fl L)} {X : ℝ} {p q : ℂ} (hb0 : s.b0.Finite) (hb1 : s.b1.Finite) (hb2 : s.b2.Finite)
    (ha1 : s.a1.Finite) (ha2 : s.a2.Finite) (hz1 : s.z1.Within X) (hz2 : s.z2.Within X)
    (hpq : StablePoles s.a1.toReal s.a2.toReal p q) (hfit : FitsFormat f (errGain s.size p q) X) :
    Tracks s s.exact X (errBound f (errGain s.size p q) X) := by
  refine tracks_of (fun _ _ _ => ⟨_, _, rfl⟩) (fun _ _ _ => ⟨_, _, rfl⟩) ?_
  intro b x y z hx hy hz
  have hX : 0 ≤ X := (abs_nonneg _).trans hz1.2
  rw [Biquad2.responds_iff] at hy
  have hz' := ((Biquad2.implementsFrom s.exact) b _ z).mp hz
  simp only [Biquad2.exact] at hz'
  unfold Biquad2.size at hfit ⊢
  obtain ⟨β0, h0⟩ : ∃ β, β = |s.b0.toReal| := ⟨_, rfl⟩
  obtain ⟨β1, h1⟩ : ∃ β, β = |s.b1.toReal| := ⟨_, rfl⟩
  obtain ⟨β2, h2⟩ : ∃ β, β = |s.b2.toReal| := ⟨_, rfl⟩
  obtain ⟨α1, h3⟩ : ∃ β, β = |s.a1.toReal| := ⟨_, rfl⟩
  obtain ⟨α2, h4⟩ : ∃ β, β = |s.a2.toReal| := ⟨_, rfl⟩
  have p0 : 0 ≤ β0 := h0 ▸ abs_nonneg _
  have p1 : 0 ≤ β1 := h1 ▸ abs_nonneg _
  have p2 : 0 ≤ β2 := h2 ▸ abs_nonneg _
  have p3 : 0 ≤ α1 := h3 ▸ abs_nonneg _
  have p4 : 0 ≤ α2 := h4 ▸ abs_nonneg _
  rw [← h0, ← h1, ← h2, ← h3, ← h4] at hfit ⊢
  have hS : X ≤ (1 + (β0 + β1 + β2 + α1 + α2)) * X := by
    have : 0 ≤ (β0 + β1 + β2 + α1 + α2) * X := by positivity
    linarith
  refine tracks_of_near hpq (by simp [h0, h1, h2, h3, h4]) hX hfit (hz1.2.trans hS) (hz2.2.trans hS) hx hz' ?_
  intro W hW hXW ov n hj
  have hW0 := f.tiny_pos.le.trans hW
  have cb0 : ∀ j, Fl.Near W (β0 + 1) β0 (s.b0 *. x j) (s.b0.toReal * (x j).toReal) := fun j => by
    have := Fl.Near.coeff hb0 (hx j).1 ((hx j).2.trans hXW) (by rw [← h0]; exact ov _ (by linarith))
    rwa [← h0] at this
  have cb1 : ∀ j, Fl.Near W (β1 + 1) β1 (s.b1 *. x j) (s.b1.toReal * (x j).toReal) := fun j => by
    have := Fl.Near.coeff hb1 (hx j).1 ((hx j).2.trans hXW) (by rw [← h1]; exact ov _ (by linarith))
    rwa [← h1] at this
  have cb2 : ∀ j, Fl.Near W (β2 + 1) β2 (s.b2 *. x j) (s.b2.toReal * (x j).toReal) := fun j => by
    have := Fl.Near.coeff hb2 (hx j).1 ((hx j).2.trans hXW) (by rw [← h2]; exact ov _ (by linarith))
    rwa [← h2] at this
  have ca1 : ∀ j < n, Fl.Near W (α1 + 1) α1 (s.a1 *. y j) (s.a1.toReal * (y j).toReal) := fun j h => by
    have := Fl.Near.coeff ha1 (hj j h).1 (hj j h).2 (by rw [← h3]; exact ov _ (by linarith))
    rwa [← h3] at this
  have ca2 : ∀ j < n, Fl.Near W (α2 + 1) α2 (s.a2 *. y j) (s.a2.toReal * (y j).toReal) := fun j h => by
    have := Fl.Near.coeff ha2 (hj j h).1 (hj j h).2 (by rw [← h4]; exact ov _ (by linarith))
    rwa [← h4] at this
  have e := tdf_eq s.b0.toReal s.b1.toReal s.b2.toReal s.a1.toReal s.a2.toReal s.z1.toReal s.z2.toReal
    (fun i => (x i).toReal) (fun i => (y i).toReal) n
  beta_reduce at e
  rw [hy n, ← e]
  clear e
  match n with
  | 0 =>
    have m1 := (cb0 0).add (Fl.Near.exact hz1.1 (hz1.2.trans hXW)) hW (by pos) (by pos) (by pos) (by pos)
      (ov _ (by linarith))
    exact ⟨_, m1.le hW0 (by linarith) le_rfl⟩
  | 1 =>
    have m1 := (cb1 0).add (Fl.Near.exact hz2.1 (hz2.2.trans hXW)) hW (by pos) (by pos) (by pos) (by pos)
      (ov _ (by linarith))
    have m2 := m1.sub (ca1 0 (by omega)) hW (by pos) (by pos) (by pos) (by pos) (ov _ (by linarith))
    have m3 := (cb0 1).add m2 hW (by pos) (by pos) (by pos) (by pos) (ov _ (by linarith))
    exact ⟨_, m3.le hW0 (by linarith) le_rfl⟩
  | n + 2 =>
    have m0 := (cb2 n).sub (ca2 n (by omega)) hW (by pos) (by pos) (by pos) (by pos) (ov _ (by linarith))
    have m1 := (cb1 (n + 1)).add m0 hW (by pos) (by pos) (by pos) (by pos) (ov _ (by linarith))
    have m2 := m1.sub (ca1 (n + 1) (by omega)) hW (by pos) (by pos) (by pos) (by pos) (ov _ (by linarith))
    have m3 := (cb0 (n + 2)).add m2 hW (by pos) (by pos) (by pos) (by pos) (ov _ (by linarith))
    exact ⟨_, m3.le hW0 (by linarith) le_rfl⟩

/-- C73, the nine cookbook filters: each tracks what its `Biquad2` tracks. -/
theorem C73_rbj {X E : ℝ} {s : Biquad2 (Fl L)} (h : Tracks s s.exact X E) :
    Tracks (LowPass.mk s) (LowPass.mk s.exact) X E ∧ Tracks (HighPass.mk s) (HighPass.mk s.exact) X E ∧
    Tracks (BandPass1.mk s) (BandPass1.mk s.exact) X E ∧ Tracks (BandPass2.mk s) (BandPass2.mk s.exact) X E ∧
    Tracks (BandStop.mk s) (BandStop.mk s.exact) X E ∧ Tracks (AllPass.mk s) (AllPass.mk s.exact) X E ∧
    Tracks (Peak.mk s) (Peak.mk s.exact) X E ∧ Tracks (LowShelf.mk s) (LowShelf.mk s.exact) X E ∧
    Tracks (HighShelf.mk s) (HighShelf.mk s.exact) X E :=
  ⟨h.congr (fun _ _ _ => LowPass.responds_iff _) (fun _ _ _ => LowPass.responds_iff _),
   h.congr (fun _ _ _ => HighPass.responds_iff _) (fun _ _ _ => HighPass.responds_iff _),
   h.congr (fun _ _ _ => BandPass1.responds_iff _) (fun _ _ _ => BandPass1.responds_iff _),
   h.congr (fun _ _ _ => BandPass2.responds_iff _) (fun _ _ _ => BandPass2.responds_iff _),
   h.congr (fun _ _ _ => BandStop.responds_iff _) (fun _ _ _ => BandStop.responds_iff _),
   h.congr (fun _ _ _ => AllPass.responds_iff _) (fun _ _ _ => AllPass.responds_iff _),
   h.congr (fun _ _ _ => Peak.responds_iff _) (fun _ _ _ => Peak.responds_iff _),
   h.congr (fun _ _ _ => LowShelf.responds_iff _) (fun _ _ _ => LowShelf.responds_iff _),
   h.congr (fun _ _ _ => HighShelf.responds_iff _) (fun _ _ _ => HighShelf.responds_iff _)⟩

end general

/-- C73, without naming the poles: for stable coefficients there is a constant `Q` that works in every format, for
every math library and every input level. -/
theorem C73_stable {a1 a2 : ℝ} (h : StablePair a1 a2) (b0 b1 b2 : ℝ) :
    ∃ Q, ∀ (f : Fmt) (L : Libm f) (s : Biquad2 (Fl L)) (X : ℝ), s.b0.Finite → s.b1.Finite → s.b2.Finite →
      s.a1.Finite → s.a2.Finite → s.b0.toReal = b0 → s.b1.toReal = b1 → s.b2.toReal = b2 → s.a1.toReal = a1 →
      s.a2.toReal = a2 → s.z1.Within X → s.z2.Within X → FitsFormat f Q X → Tracks s s.exact X (errBound f Q X) := by
  obtain ⟨p, q, hs, hm, hp, hq⟩ := h.roots
  refine ⟨errGain (|b0| + |b1| + |b2| + |a1| + |a2|) p q, ?_⟩
  intro f L s X hb0 hb1 hb2 ha1 ha2 e0 e1 e2 e3 e4 hz1 hz2 hfit
  have hS : s.size = |b0| + |b1| + |b2| + |a1| + |a2| := by unfold Biquad2.size; rw [e0, e1, e2, e3, e4]
  rw [← hS] at hfit ⊢
  exact C73_biquad2 hb0 hb1 hb2 ha1 ha2 hz1 hz2 ⟨by rw [hs, e3], by rw [hm, e4], hp, hq⟩ hfit

/-- A one-pole smoother in single precision: the error never exceeds 1793 units in the 24th binary place. -/
example {L : Libm binary32} {s : OnePole (Fl L)} (hb0 : s.b0.Finite) (ha1 : s.a1.Finite) (e0 : s.b0.toReal = 1 / 2)
    (e1 : s.a1.toReal = -(1 / 2)) (hm : s.y_z1 = zero) : Tracks s s.exact 1 (1793 * 2 ^ (-24 : ℤ)) := by
  have hQ : errGain (|s.b0.toReal| + |s.a1.toReal|) (1 / 2) 0 = 4 := by
    unfold errGain; rw [e0, e1]; norm_num [abs_of_pos]
  have key := C73_onePole (X := 1) (p := 1 / 2) hb0 ha1 (by rw [hm]; exact ⟨Fl.zero_finite, by simp⟩)
    ⟨by rw [e1]; norm_num, by simp, by norm_num, by simp⟩
    (by
      rw [hQ]
      exact ⟨by norm_num [binary32], by simp only [Fmt.tiny, binary32]; norm_num⟩)
  rw [hQ] at key
  refine key.le ?_
  simp only [errBound, Fmt.u, Fmt.tiny, binary32]
  norm_num

example {L : Libm binary32} : ∃ s : OnePole (Fl L), s.b0.Finite ∧ s.a1.Finite ∧ s.b0.toReal = 1 / 2 ∧
    s.a1.toReal = -(1 / 2) ∧ s.y_z1 = zero := by
  have h1 : (1 / 2 : ℝ) = 2 ^ (-1 : ℤ) := by norm_num
  obtain ⟨v, hv, e⟩ := Fl.exists_of_isRep L (v := 1 / 2) (by rw [h1]; exact isRep_two_zpow (by decide))
    (by unfold Fmt.lim; norm_num [binary32])
  exact ⟨⟨zero, v, neg v⟩, hv, Fl.neg_finite.mpr hv, e, by simp [e], rfl⟩

end Rasp
