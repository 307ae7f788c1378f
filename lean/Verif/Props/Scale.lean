import Verif.Spec.Scale
import Verif.Lemmas.Diff
import Verif.Lemmas.Rbj
import Verif.Lemmas.SmoothFl
import Verif.Model.Analysis

/-!
# C96: turning the input up by a power of two, in floating point
-/

namespace Rasp
open FloatOps Fl
variable {f : Fmt} {L : Libm f}

/-! ## Rounding -/

theorem IsRep.scale {r : ℝ} (h : IsRep f r) (k : ℕ) : IsRep f (2 ^ k * r) := by
  obtain ⟨m, e, hm, he, rfl⟩ := h
  refine ⟨m, e + k, hm, by omega, ?_⟩
  rw [zpow_add₀ (by norm_num), zpow_natCast]; ring

/-- Rounding commutes with powers of two above the subnormal range. -/
theorem rnd_scale {r : ℝ} (h : r = 0 ∨ (2 : ℝ) ^ (f.emin + f.p - 1) ≤ |r|) (k : ℕ) : rnd f (2 ^ k * r) = 2 ^ k * rnd f r := by
  rcases h with rfl | h
  · simp
  have h0 : r ≠ 0 := by
    rintro rfl
    rw [abs_zero] at h
    exact absurd h (not_le.mpr (two_zpow_pos _))
  have hk : |2 ^ k * r| = 2 ^ k * |r| := by rw [abs_mul, abs_of_pos (by positivity)]
  have hl : Int.log 2 |2 ^ k * r| = Int.log 2 |r| + k := by
    apply log_eq_of
    · rw [hk, zpow_add₀ (by norm_num), zpow_natCast, mul_comm]
      exact mul_le_mul_of_nonneg_left (zpow_log_le h0) (by positivity)
    · rw [hk, show Int.log 2 |r| + (k : ℤ) + 1 = k + (Int.log 2 |r| + 1) by ring, zpow_add₀ (by norm_num), zpow_natCast]
      exact mul_lt_mul_of_pos_left (lt_zpow_log r) (by positivity)
  have hlow : f.emin + f.p - 1 ≤ Int.log 2 |r| := by
    have := lt_of_le_of_lt h (lt_zpow_log r)
    rw [zpow_lt_zpow_iff_right₀ (by norm_num)] at this
    omega
  have hc : cexp f (2 ^ k * r) = cexp f r + k := by
    unfold cexp; rw [hl]; omega
  unfold rnd
  have hz : (2 : ℝ) ^ (cexp f r + (k : ℤ)) = 2 ^ k * 2 ^ cexp f r := by rw [zpow_add₀ (by norm_num), zpow_natCast, mul_comm]
  rw [hc, hz, mul_div_mul_left _ _ (by positivity)]
  ring

/-- A sum of representable numbers that is too small to be normal is exact. -/
theorem isRep_add {v w : ℝ} (hv : IsRep f v) (hw : IsRep f w) (h : |v + w| < (2 : ℝ) ^ (f.emin + f.p - 1)) : IsRep f (v + w) := by
  obtain ⟨m, hm⟩ := hv.mul_of_le_cexp (emin_le_cexp f v)
  obtain ⟨n, hn⟩ := hw.mul_of_le_cexp (emin_le_cexp f w)
  have e : v + w = ((m + n : ℤ) : ℝ) * 2 ^ f.emin := by rw [hm, hn]; push_cast; ring
  rw [e]
  apply isRep_of_le _ le_rfl
  rw [e, abs_mul, abs_of_pos (two_zpow_pos f.emin), show f.emin + (f.p : ℤ) - 1 = (f.p - 1) + f.emin by ring, zpow_add₀ (by norm_num)] at h
  have h1 := lt_of_mul_lt_mul_right h (two_zpow_pos f.emin).le
  have h2 : (2 : ℝ) ^ ((f.p : ℤ) - 1) ≤ 2 ^ f.p := by
    rw [← zpow_natCast]; exact zpow_le_zpow_right₀ (by norm_num) (by omega)
  have h3 : |((m + n : ℤ) : ℝ)| ≤ ((2 ^ f.p : ℤ) : ℝ) := by push_cast at *; exact (h1.trans_le h2).le
  exact_mod_cast h3

theorem rnd_scale_add {v w : ℝ} (hv : IsRep f v) (hw : IsRep f w) (k : ℕ) : rnd f (2 ^ k * (v + w)) = 2 ^ k * rnd f (v + w) := by
  by_cases h : |v + w| < (2 : ℝ) ^ (f.emin + f.p - 1)
  · have := isRep_add hv hw h
    rw [rnd_of_isRep this, rnd_of_isRep (this.scale k)]
  · exact rnd_scale (.inr (not_lt.mp h)) k

theorem noOvf_of_scale {r : ℝ} {k : ℕ} (e : rnd f (2 ^ k * r) = 2 ^ k * rnd f r) (h : FP.NoOvf f (2 ^ k * r)) : FP.NoOvf f r := by
  unfold FP.NoOvf at *
  rw [e, abs_mul, abs_of_pos (by positivity)] at h
  refine lt_of_le_of_lt ?_ h
  exact le_mul_of_one_le_left (abs_nonneg _) (one_le_pow₀ (by norm_num))

namespace Fl.Louder
variable {k : ℕ}

theorem zero : Louder k (zero : Fl L) zero := fun _ => ⟨zero_finite, by simp⟩

theorem neg {x x' : Fl L} (h : x.Louder k x') : (FloatOps.neg x).Louder k (FloatOps.neg x') := fun hf => by
  have := h (neg_finite.mp hf)
  exact ⟨neg_finite.mpr this.1, by rw [neg_toReal, neg_toReal, this.2]; ring⟩

theorem abs {x x' : Fl L} (h : x.Louder k x') : (FloatOps.abs x).Louder k (FloatOps.abs x') := fun hf => by
  have := h (abs_finite.mp hf)
  exact ⟨abs_finite.mpr this.1, by rw [abs_toReal, abs_toReal, this.2, abs_mul, abs_of_pos (by positivity)]⟩

theorem sub {x x' y y' : Fl L} (hx : x.Louder k x') (hy : y.Louder k y') : (x -. y).Louder k (x' -. y') := fun hf => by
  have fx : x'.Finite := by by_contra hn; exact sub_not_finite_left hn hf
  have fy : y'.Finite := by by_contra hn; exact add_not_finite_right (y := FloatOps.neg y') (fun h' => hn (neg_finite.mp h')) hf
  obtain ⟨hx1, hx2⟩ := hx fx
  obtain ⟨hy1, hy2⟩ := hy fy
  have no : FP.NoOvf f (x'.toReal - y'.toReal) := by by_contra hn; exact sub_ovf fx fy hn hf
  have e := rnd_scale_add (isRep_toReal x) (isRep_toReal y).neg k
  rw [← sub_eq_add_neg] at e
  have e' : x'.toReal - y'.toReal = 2 ^ k * (x.toReal - y.toReal) := by rw [hx2, hy2]; ring
  have no' := no
  rw [e'] at no'
  have h1 := sub_val hx1 hy1 (noOvf_of_scale e no')
  exact ⟨h1.1, by rw [h1.2, (sub_val fx fy no).2, e', e]⟩

theorem neg_neg (y : Fl L) : FloatOps.neg (FloatOps.neg y) = y := by
  have : ∀ y : FP f, FP.neg (FP.neg y) = y := by intro y; cases y <;> simp [FP.neg]
  exact this y

theorem add {x x' y y' : Fl L} (hx : x.Louder k x') (hy : y.Louder k y') : (x +. y).Louder k (x' +. y') := by
  have h := hx.sub hy.neg
  have e : ∀ x y : Fl L, x -. FloatOps.neg y = x +. y := fun x y => by
    change x +. FloatOps.neg (FloatOps.neg y) = x +. y
    rw [neg_neg]
  rwa [e, e] at h

theorem mul_of {x x' y y' : Fl L} {j : ℕ} (hx : x.Louder j x') (hy : y.Louder k y') (hu : NoUnderflow x y) : (x *. y).Louder (j + k) (x' *. y') := fun hf => by
  have fy : y'.Finite := by by_contra hn; exact mul_not_finite_right hn hf
  have fx : x'.Finite := by
    by_contra hn
    have hc : ∀ x y : FP f, FP.mul x y = FP.mul y x := by
      intro x y
      cases x <;> cases y <;> simp only [FP.mul, bne_comm, _root_.mul_comm]
    have : x' *. y' = y' *. x' := hc x' y'
    rw [this] at hf
    exact mul_not_finite_right hn hf
  obtain ⟨hx1, hx2⟩ := hx fx
  obtain ⟨hy1, hy2⟩ := hy fy
  have no : FP.NoOvf f (x'.toReal * y'.toReal) := by
    by_contra hn
    rw [mul_ovf fx fy hn] at hf
    exact inf_not_finite _ hf
  have e := rnd_scale hu (j + k)
  have e' : x'.toReal * y'.toReal = 2 ^ (j + k) * (x.toReal * y.toReal) := by rw [hx2, hy2, pow_add]; ring
  have no' := no
  rw [e'] at no'
  have h1 := mul_val hx1 hy1 (noOvf_of_scale e no')
  exact ⟨h1.1, by rw [h1.2, (mul_val fx fy no).2, e', e]⟩

theorem mul {c y y' : Fl L} (hy : y.Louder k y') (hu : NoUnderflow c y) : (c *. y).Louder k (c *. y') := by
  have := mul_of (j := 0) (x := c) (x' := c) (fun h => ⟨h, by simp⟩) hy hu
  rwa [zero_add] at this

end Fl.Louder

/-! ## Simulation -/

theorem scales_of {σ : Type} [Processor σ (Fl L)] (p : σ → Fl L → σ × Fl L) (hp : ∀ (b : Build) (s : σ) (x : Fl L), Processor.process b s x = .ok (p s x))
    {s : σ} {Ok : (ℕ → Fl L) → (ℕ → Fl L) → Prop} (R : ℕ → (ℕ → Fl L) → (ℕ → Fl L) → ℕ → σ → σ → Prop) (h0 : ∀ k x y, R k x y 0 s s)
    (step : ∀ (k : ℕ) (x y : ℕ → Fl L) (n : ℕ) (u t : σ) (x' : Fl L), Ok x y → R k x y n u t → (x n).Louder k x' → (p u (x n)).2 = y n →
      R k x y (n + 1) (p u (x n)).1 (p t x').1 ∧ (y n).Louder k (p t x').2) : ScalesExactly s Ok := by
  intro b k x x' y hx ⟨st, hs0, hst⟩ hok
  let tt : ℕ → σ := fun n => Nat.rec s (fun n t => (p t (x' n)).1) n
  have hR : ∀ n, R k x y n (st n) (tt n) := by
    intro n
    induction n with
    | zero => rw [hs0]; exact h0 k x y
    | succ n ih =>
      have h := hst n
      rw [hp] at h
      injection h with h
      have := (step k x y n _ _ _ hok ih (hx n) (by rw [h])).1
      rw [h] at this
      exact this
  refine ⟨fun n => (p (tt n) (x' n)).2, ⟨tt, rfl, fun n => by rw [hp]⟩, fun n => ?_⟩
  have h := hst n
  rw [hp] at h
  injection h with h
  exact (step k x y n _ _ _ hok (hR n) (hx n) (by rw [h])).2

theorem Fl.NoUnderflow.zero (c : Fl L) : NoUnderflow c (FloatOps.zero : Fl L) := .inl (by simp)

theorem Biquad2.scales (s : Biquad2 (Fl L)) : ScalesExactly s.clear s.NoUnderflow := by
  refine scales_of Biquad2.process (fun _ _ _ => rfl) (fun k _ _ _ u t => u.z1.Louder k t.z1 ∧ u.z2.Louder k t.z2 ∧
    (u.b0 = s.b0 ∧ u.b1 = s.b1 ∧ u.b2 = s.b2 ∧ u.a1 = s.a1 ∧ u.a2 = s.a2) ∧
    (t.b0 = s.b0 ∧ t.b1 = s.b1 ∧ t.b2 = s.b2 ∧ t.a1 = s.a1 ∧ t.a2 = s.a2))
    (fun _ _ _ => ⟨.zero, .zero, ⟨rfl, rfl, rfl, rfl, rfl⟩, rfl, rfl, rfl, rfl, rfl⟩) ?_
  rintro k x y n u t x' hok ⟨h1, h2, hu, ht⟩ hx hy
  obtain ⟨o0, o1, o2, o3, o4⟩ := hok n
  have ho : (y n).Louder k (t.process x').2 := by
    rw [← hy]
    simp only [Biquad2.process]
    rw [hu.1, ht.1]
    exact (hx.mul o0).add h1
  refine ⟨⟨?_, ?_, hu, ht⟩, ho⟩
  · have : (u.process (x n)).1.z1 = s.b1 *. x n +. u.z2 -. s.a1 *. y n := by
      rw [← hy, ← hu.2.1, ← hu.2.2.2.1]; rfl
    rw [this]
    have : (t.process x').1.z1 = s.b1 *. x' +. t.z2 -. s.a1 *. (t.process x').2 := by
      rw [← ht.2.1, ← ht.2.2.2.1]; rfl
    rw [this]
    exact ((hx.mul o1).add h2).sub (ho.mul o3)
  · have : (u.process (x n)).1.z2 = s.b2 *. x n -. s.a2 *. y n := by
      rw [← hy, ← hu.2.2.1, ← hu.2.2.2.2]; rfl
    rw [this]
    have : (t.process x').1.z2 = s.b2 *. x' -. s.a2 *. (t.process x').2 := by
      rw [← ht.2.2.1, ← ht.2.2.2.2]; rfl
    rw [this]
    exact (hx.mul o2).sub (ho.mul o4)

/-- **C96**, basic filters: after `clear`, if no product of a coefficient and a sample falls into the subnormal range, turning
the input up by a power of two turns the output up by exactly that much, wherever it does not overflow. -/
theorem C96_filters :
    (∀ s : OnePole (Fl L), ScalesExactly s.clear fun x y => ∀ n, NoUnderflow s.b0 (x n) ∧ NoUnderflow s.a1 (y n)) ∧
    (∀ s : OneZero (Fl L), ScalesExactly s.clear fun x _ => ∀ n, NoUnderflow s.b0 (x n) ∧ NoUnderflow s.b1 (x n)) ∧
    (∀ s : TwoPole (Fl L), ScalesExactly s.clear fun x y => ∀ n,
      NoUnderflow s.b0 (x n) ∧ NoUnderflow s.a1 (y n) ∧ NoUnderflow s.a2 (y n)) ∧
    (∀ s : TwoZero (Fl L), ScalesExactly s.clear fun x _ => ∀ n,
      NoUnderflow s.b0 (x n) ∧ NoUnderflow s.b1 (x n) ∧ NoUnderflow s.b2 (x n)) ∧
    (∀ s : Biquad1 (Fl L), ScalesExactly s.clear fun x y => ∀ n,
      NoUnderflow s.b0 (x n) ∧ NoUnderflow s.b1 (x n) ∧ NoUnderflow s.b2 (x n) ∧ NoUnderflow s.a1 (y n) ∧ NoUnderflow s.a2 (y n)) ∧
    (∀ s : Biquad2 (Fl L), ScalesExactly s.clear fun x y => ∀ n,
      NoUnderflow s.b0 (x n) ∧ NoUnderflow s.b1 (x n) ∧ NoUnderflow s.b2 (x n) ∧ NoUnderflow s.a1 (y n) ∧ NoUnderflow s.a2 (y n)) := by
  refine ⟨fun s => ?_, fun s => ?_, fun s => ?_, fun s => ?_, fun s => ?_, fun s => s.scales⟩
  · refine scales_of OnePole.process (fun _ _ _ => rfl) (fun k _ _ _ u t => u.y_z1.Louder k t.y_z1 ∧ NoUnderflow s.a1 u.y_z1 ∧
      (u.b0 = s.b0 ∧ u.a1 = s.a1) ∧ t.b0 = s.b0 ∧ t.a1 = s.a1) (fun _ _ _ => ⟨.zero, .zero _, ⟨rfl, rfl⟩, rfl, rfl⟩) ?_
    rintro k x y n u t x' hok ⟨h1, n1, ⟨u0, u1⟩, t0, t1⟩ hx hy
    have ho : (y n).Louder k (t.process x').2 := by
      rw [← hy]
      simp only [OnePole.process]
      rw [u0, t0, u1, t1]
      exact (hx.mul (hok n).1).sub (h1.mul n1)
    have e : (u.process (x n)).1.y_z1 = y n := hy
    exact ⟨⟨by rw [e]; exact ho, by rw [e]; exact (hok n).2, ⟨u0, u1⟩, t0, t1⟩, ho⟩
  · refine scales_of OneZero.process (fun _ _ _ => rfl) (fun k _ _ _ u t => u.x_z1.Louder k t.x_z1 ∧ NoUnderflow s.b1 u.x_z1 ∧
      (u.b0 = s.b0 ∧ u.b1 = s.b1) ∧ t.b0 = s.b0 ∧ t.b1 = s.b1) (fun _ _ _ => ⟨.zero, .zero _, ⟨rfl, rfl⟩, rfl, rfl⟩) ?_
    rintro k x y n u t x' hok ⟨h1, n1, ⟨u0, u1⟩, t0, t1⟩ hx hy
    refine ⟨⟨hx, (hok n).2, ⟨u0, u1⟩, t0, t1⟩, ?_⟩
    rw [← hy]
    simp only [OneZero.process]
    rw [u0, t0, u1, t1]
    exact (hx.mul (hok n).1).add (h1.mul n1)
  · refine scales_of TwoPole.process (fun _ _ _ => rfl) (fun k _ _ _ u t => (u.y_z1.Louder k t.y_z1 ∧ u.y_z2.Louder k t.y_z2) ∧
      (NoUnderflow s.a1 u.y_z1 ∧ NoUnderflow s.a2 u.y_z1 ∧ NoUnderflow s.a2 u.y_z2) ∧
      (u.b0 = s.b0 ∧ u.a1 = s.a1 ∧ u.a2 = s.a2) ∧ t.b0 = s.b0 ∧ t.a1 = s.a1 ∧ t.a2 = s.a2)
      (fun _ _ _ => ⟨⟨.zero, .zero⟩, ⟨.zero _, .zero _, .zero _⟩, ⟨rfl, rfl, rfl⟩, rfl, rfl, rfl⟩) ?_
    rintro k x y n u t x' hok ⟨⟨h1, h2⟩, ⟨n1, n2, n3⟩, ⟨u0, u1, u2⟩, t0, t1, t2⟩ hx hy
    have ho : (y n).Louder k (t.process x').2 := by
      rw [← hy]
      simp only [TwoPole.process]
      rw [u0, t0, u1, t1, u2, t2]
      exact ((hx.mul (hok n).1).sub (h1.mul n1)).sub (h2.mul n3)
    have e : (u.process (x n)).1.y_z1 = y n := hy
    exact ⟨⟨⟨by rw [e]; exact ho, h1⟩, ⟨by rw [e]; exact (hok n).2.1, by rw [e]; exact (hok n).2.2, n2⟩, ⟨u0, u1, u2⟩, t0, t1, t2⟩, ho⟩
  · refine scales_of TwoZero.process (fun _ _ _ => rfl) (fun k _ _ _ u t => (u.x_z1.Louder k t.x_z1 ∧ u.x_z2.Louder k t.x_z2) ∧
      (NoUnderflow s.b1 u.x_z1 ∧ NoUnderflow s.b2 u.x_z1 ∧ NoUnderflow s.b2 u.x_z2) ∧
      (u.b0 = s.b0 ∧ u.b1 = s.b1 ∧ u.b2 = s.b2) ∧ t.b0 = s.b0 ∧ t.b1 = s.b1 ∧ t.b2 = s.b2)
      (fun _ _ _ => ⟨⟨.zero, .zero⟩, ⟨.zero _, .zero _, .zero _⟩, ⟨rfl, rfl, rfl⟩, rfl, rfl, rfl⟩) ?_
    rintro k x y n u t x' hok ⟨⟨h1, h2⟩, ⟨n1, n2, n3⟩, ⟨u0, u1, u2⟩, t0, t1, t2⟩ hx hy
    refine ⟨⟨⟨hx, h1⟩, ⟨(hok n).2.1, (hok n).2.2, n2⟩, ⟨u0, u1, u2⟩, t0, t1, t2⟩, ?_⟩
    rw [← hy]
    simp only [TwoZero.process]
    rw [u0, t0, u1, t1, u2, t2]
    exact ((hx.mul (hok n).1).add (h1.mul n1)).add (h2.mul n3)
  · refine scales_of Biquad1.process (fun _ _ _ => rfl) (fun k _ _ _ u t =>
      (u.x_z1.Louder k t.x_z1 ∧ u.x_z2.Louder k t.x_z2 ∧ u.y_z1.Louder k t.y_z1 ∧ u.y_z2.Louder k t.y_z2) ∧
      (NoUnderflow s.b1 u.x_z1 ∧ NoUnderflow s.b2 u.x_z1 ∧ NoUnderflow s.b2 u.x_z2) ∧
      (NoUnderflow s.a1 u.y_z1 ∧ NoUnderflow s.a2 u.y_z1 ∧ NoUnderflow s.a2 u.y_z2) ∧
      (u.b0 = s.b0 ∧ u.b1 = s.b1 ∧ u.b2 = s.b2 ∧ u.a1 = s.a1 ∧ u.a2 = s.a2) ∧ t.b0 = s.b0 ∧ t.b1 = s.b1 ∧ t.b2 = s.b2 ∧ t.a1 = s.a1 ∧ t.a2 = s.a2)
      (fun _ _ _ => ⟨⟨.zero, .zero, .zero, .zero⟩, ⟨.zero _, .zero _, .zero _⟩, ⟨.zero _, .zero _, .zero _⟩, ⟨rfl, rfl, rfl, rfl, rfl⟩, rfl, rfl, rfl, rfl, rfl⟩) ?_
    rintro k x y n u t x' hok ⟨⟨h1, h2, h3, h4⟩, ⟨n1, n2, n3⟩, ⟨m1, m2, m3⟩, ⟨u0, u1, u2, u3, u4⟩, t0, t1, t2, t3, t4⟩ hx hy
    obtain ⟨o0, o1, o2, o3, o4⟩ := hok n
    have ho : (y n).Louder k (t.process x').2 := by
      rw [← hy]
      simp only [Biquad1.process]
      rw [u0, t0, u1, t1, u2, t2, u3, t3, u4, t4]
      exact ((((hx.mul o0).add (h1.mul n1)).add (h2.mul n3)).sub (h3.mul m1)).sub (h4.mul m3)
    have e : (u.process (x n)).1.y_z1 = y n := hy
    exact ⟨⟨⟨hx, h1, by rw [e]; exact ho, h3⟩, ⟨o1, o2, n2⟩, ⟨by rw [e]; exact o3, by rw [e]; exact o4, m2⟩,
      ⟨u0, u1, u2, u3, u4⟩, t0, t1, t2, t3, t4⟩, ho⟩

theorem ScalesExactly.congr {σ τ : Type} [Processor σ (Fl L)] [Processor τ (Fl L)] {s : σ} {t : τ} {Ok : (ℕ → Fl L) → (ℕ → Fl L) → Prop}
    (h : ScalesExactly t Ok) (hs : ∀ b x y, Responds b s x y ↔ Responds b t x y) : ScalesExactly s Ok := by
  intro b k x x' y hx hy hok
  obtain ⟨y', h1, h2⟩ := h b k x x' y hx ((hs b x y).mp hy) hok
  exact ⟨y', (hs b x' y').mpr h1, h2⟩

/-- **C96**, rbj filters: after `clear`. -/
theorem C96_rbj :
    (∀ s : LowPass (Fl L), ScalesExactly s.clear s.biquad.NoUnderflow) ∧ (∀ s : HighPass (Fl L), ScalesExactly s.clear s.biquad.NoUnderflow) ∧
    (∀ s : BandPass1 (Fl L), ScalesExactly s.clear s.biquad.NoUnderflow) ∧ (∀ s : BandPass2 (Fl L), ScalesExactly s.clear s.biquad.NoUnderflow) ∧
    (∀ s : BandStop (Fl L), ScalesExactly s.clear s.biquad.NoUnderflow) ∧ (∀ s : AllPass (Fl L), ScalesExactly s.clear s.biquad.NoUnderflow) ∧
    (∀ s : Peak (Fl L), ScalesExactly s.clear s.biquad.NoUnderflow) ∧ (∀ s : LowShelf (Fl L), ScalesExactly s.clear s.biquad.NoUnderflow) ∧
    (∀ s : HighShelf (Fl L), ScalesExactly s.clear s.biquad.NoUnderflow) :=
  ⟨fun s => s.biquad.scales.congr fun _ _ _ => LowPass.responds_iff _, fun s => s.biquad.scales.congr fun _ _ _ => HighPass.responds_iff _,
    fun s => s.biquad.scales.congr fun _ _ _ => BandPass1.responds_iff _, fun s => s.biquad.scales.congr fun _ _ _ => BandPass2.responds_iff _,
    fun s => s.biquad.scales.congr fun _ _ _ => BandStop.responds_iff _, fun s => s.biquad.scales.congr fun _ _ _ => AllPass.responds_iff _,
    fun s => s.biquad.scales.congr fun _ _ _ => Peak.responds_iff _, fun s => s.biquad.scales.congr fun _ _ _ => LowShelf.responds_iff _,
    fun s => s.biquad.scales.congr fun _ _ _ => HighShelf.responds_iff _⟩

/-! ## Level detectors -/

theorem Fl.Louder.smooth {k : ℕ} {g i i' e e' : Fl L} (hi : i.Louder k i') (he : e.Louder k e') (hu : NoUnderflow g (e -. i)) :
    (i +. g *. (e -. i)).Louder k (i' +. g *. (e' -. i')) := hi.add ((he.sub hi).mul hu)

/-- The same when the gain depends on which of the two is larger. -/
theorem Fl.Louder.follow {k : ℕ} {g h i i' e e' : Fl L} (hi : i.Louder k i') (he : e.Louder k e') (hg : NoUnderflow g (e -. i)) (hh : NoUnderflow h (e -. i)) :
    (i +. (if lt e i then g else h) *. (e -. i)).Louder k (i' +. (if lt e' i' then g else h) *. (e' -. i')) := fun hf => by
  have fi : i'.Finite := by by_contra hn; exact add_not_finite_left hn hf
  have fe : e'.Finite := by by_contra hn; exact smooth_not_finite_right hn hf
  obtain ⟨i1, i2⟩ := hi fi
  obtain ⟨e1, e2⟩ := he fe
  have : lt e' i' = lt e i := by
    rw [Bool.eq_iff_iff, lt_iff fe fi, lt_iff e1 i1, i2, e2, mul_lt_mul_iff_right₀ (by positivity)]
  rw [this] at hf ⊢
  refine (hi.smooth he ?_) hf
  split <;> assumption

theorem Fl.sqrt_finite_iff {x : Fl L} : (FloatOps.sqrt x).Finite → x.Finite ∧ 0 ≤ x.toReal := by
  have : ∀ x : FP f, (FP.sqrt x).Finite → x.Finite ∧ 0 ≤ x.toReal := by
    intro x h
    cases x with
    | nan => exact h.elim
    | inf s => cases s <;> exact absurd h (by simp [FP.sqrt, FP.Finite])
    | fin s a ha =>
      refine ⟨trivial, ?_⟩
      cases s
      · exact ha.1
      · by_cases h0 : a = 0
        · simp [h0]
        · simp [FP.sqrt, h0, FP.Finite] at h
  exact this x

/-- `sqrt` halves the exponent; in a format with a wide enough exponent range no square root is subnormal. -/
theorem Fl.Louder.sqrt {k : ℕ} {x x' : Fl L} (hf : f.emin + 2 * f.p ≤ 2) (h : x.Louder (k + k) x') : (FloatOps.sqrt x).Louder k (FloatOps.sqrt x') := fun hs => by
  obtain ⟨f', n'⟩ := sqrt_finite_iff hs
  obtain ⟨fx, ex⟩ := h f'
  have nx : 0 ≤ x.toReal := by
    rw [ex] at n'
    exact nonneg_of_mul_nonneg_right n' (by positivity)
  have h1 := sqrt_val fx nx
  have h2 := sqrt_val f' n'
  refine ⟨h1.1, ?_⟩
  rw [h1.2, h2.2, ex, pow_add, Real.sqrt_mul (by positivity), Real.sqrt_mul_self (by positivity)]
  apply rnd_scale
  rcases nx.eq_or_lt with h0 | h0
  · left; rw [← h0, Real.sqrt_zero]
  · right
    obtain ⟨m, hm⟩ := (isRep_toReal x).mul_of_le_cexp (emin_le_cexp f x.toReal)
    have hm1 : 1 ≤ m := by
      rw [hm] at h0
      have := (mul_pos_iff_of_pos_right (two_zpow_pos f.emin)).mp h0
      have : 0 < m := by exact_mod_cast this
      omega
    rw [abs_of_nonneg (Real.sqrt_nonneg _)]
    apply Real.le_sqrt_of_sq_le
    rw [hm]
    calc ((2 : ℝ) ^ (f.emin + (f.p : ℤ) - 1)) ^ 2 = 2 ^ (2 * (f.emin + (f.p : ℤ) - 1)) := by
            rw [← zpow_natCast, ← zpow_mul]; congr 1; push_cast; ring
      _ ≤ 2 ^ f.emin := zpow_le_zpow_right₀ (by norm_num) (by omega)
      _ ≤ m * 2 ^ f.emin := le_mul_of_one_le_left (two_zpow_pos _).le (by exact_mod_cast hm1)

/-- **C96**, LeakyIntegrator and PeakEnvDetector: after `clear`. -/
theorem C96_detectors :
    (∀ s : LeakyIntegrator (Fl L), ScalesExactly s.clear fun x y => ∀ n, NoUnderflow s.alpha (before zero y n -. x n)) ∧
    (∀ s : PeakEnvDetector (Fl L), ScalesExactly s.clear fun x y => ∀ n,
      NoUnderflow s.attack_gain (before zero y n -. abs (x n)) ∧ NoUnderflow s.release_gain (before zero y n -. abs (x n))) := by
  refine ⟨fun s => ?_, fun s => ?_⟩
  · refine scales_of LeakyIntegrator.process (fun _ _ _ => rfl) (fun k _ y n u t => u.y_z1.Louder k t.y_z1 ∧ u.y_z1 = before zero y n ∧
      u.alpha = s.alpha ∧ t.alpha = s.alpha) (fun _ _ _ => ⟨.zero, rfl, rfl, rfl⟩) ?_
    rintro k x y n u t x' hok ⟨h1, n1, u0, t0⟩ hx hy
    have ho : (y n).Louder k (t.process x').2 := by
      rw [← hy]
      simp only [LeakyIntegrator.process]
      rw [u0, t0]
      exact hx.smooth h1 (n1 ▸ hok n)
    have e : (u.process (x n)).1.y_z1 = y n := hy
    exact ⟨⟨by rw [e]; exact ho, e, u0, t0⟩, ho⟩
  · refine scales_of PeakEnvDetector.process (fun _ _ _ => rfl) (fun k _ y n u t => u.envelope.Louder k t.envelope ∧ u.envelope = before zero y n ∧
      (u.attack_gain = s.attack_gain ∧ u.release_gain = s.release_gain) ∧ t.attack_gain = s.attack_gain ∧ t.release_gain = s.release_gain)
      (fun _ _ _ => ⟨.zero, rfl, ⟨rfl, rfl⟩, rfl, rfl⟩) ?_
    rintro k x y n u t x' hok ⟨h1, n1, ⟨u0, u1⟩, t0, t1⟩ hx hy
    have ho : (y n).Louder k (t.process x').2 := by
      rw [← hy]
      simp only [PeakEnvDetector.process]
      rw [u0, t0, u1, t1]
      exact hx.abs.follow h1 (n1 ▸ (hok n).1) (n1 ▸ (hok n).2)
    have e : (u.process (x n)).1.envelope = y n := hy
    exact ⟨⟨by rw [e]; exact ho, e, ⟨u0, u1⟩, t0, t1⟩, ho⟩

/-- **C96**, RmsEnvDetector: after `clear`, in `f32`, `f64` and any format with as wide an exponent range. -/
theorem C96_rms (hf : f.emin + 2 * f.p ≤ 2) (s : RmsEnvDetector (Fl L)) : ScalesExactly s.clear fun x _ => s.NoUnderflow x := by
  refine scales_of RmsEnvDetector.process (fun _ _ _ => rfl) (fun k x _ n u t => u.envelope.Louder (k + k) t.envelope ∧
    u = Nat.rec s.clear (fun n v => (v.process (x n)).1) n ∧
    (u.attack_gain = s.attack_gain ∧ u.release_gain = s.release_gain) ∧ t.attack_gain = s.attack_gain ∧ t.release_gain = s.release_gain)
    (fun _ _ _ => ⟨.zero, rfl, ⟨rfl, rfl⟩, rfl, rfl⟩) ?_
  rintro k x y n u t x' hok ⟨h1, n1, ⟨u0, u1⟩, t0, t1⟩ hx hy
  obtain ⟨o1, o2, o3⟩ := hok (fun n => Nat.rec s.clear (fun n v => (v.process (x n)).1) n) rfl (fun _ => rfl) n
  have ho : (u.process (x n)).1.envelope.Louder (k + k) (t.process x').1.envelope := by
    simp only [RmsEnvDetector.process]
    rw [u0, t0, u1, t1]
    exact (hx.mul_of hx o1).follow h1 (n1 ▸ o2) (n1 ▸ o3)
  refine ⟨⟨ho, by rw [n1], ⟨u0, u1⟩, t0, t1⟩, ?_⟩
  rw [← hy]
  exact ho.sqrt hf

example : binary32.emin + 2 * binary32.p ≤ 2 ∧ binary64.emin + 2 * binary64.p ≤ 2 := by decide

/-! ## The condition is needed -/

theorem rne_half : rne (1 / 2) = 0 := by
  have := rne_half_even (n := 0) (by simp)
  simpa using this

theorem rnd_half_smallest (f : Fmt) : rnd f (2 ^ f.emin / 2) = 0 := by
  have h : cexp f (2 ^ f.emin / 2) = f.emin := by
    have hl : Int.log 2 |(2 : ℝ) ^ f.emin / 2| = f.emin - 1 := by
      have e : (2 : ℝ) ^ f.emin / 2 = 2 ^ (f.emin - 1) := by rw [zpow_sub₀ (by norm_num)]; norm_num
      apply log_eq_of <;> rw [e, abs_of_pos (two_zpow_pos _)]
      exact zpow_lt_zpow_right₀ (by norm_num) (by omega)
    unfold cexp
    rw [hl]
    have := f.hp
    omega
  unfold rnd
  rw [h, div_right_comm, div_self (two_zpow_pos _).ne', rne_half]
  simp

/-- **C96**: without that condition it is false in every format. A OnePole that halves its input turns the smallest positive
number into zero but twice that number into the smallest positive number. -/
theorem C96_underflow (L : Libm f) : ∃ s : OnePole (Fl L), s.b0.toReal = 1 / 2 ∧ s.a1 = zero ∧ ∃ x x' y y' : ℕ → Fl L,
    (∀ n, (x n).Finite ∧ (x' n).Finite ∧ (x n).Louder 1 (x' n)) ∧ (x 0).toReal = 2 ^ f.emin ∧
    ∀ b, Responds b s.clear x y ∧ Responds b s.clear x' y' ∧
      ∀ n, (y n).Finite ∧ (y' n).Finite ∧ (y n).toReal = 0 ∧ (y' n).toReal = 2 ^ f.emin := by
  have hlim : ∀ {v : ℝ}, 0 ≤ v → v ≤ 1 → |v| < f.lim := fun h0 h1 => by
    rw [abs_of_nonneg h0]; exact lt_of_le_of_lt h1 (FP.one_lt_lim f)
  have hp := f.hp
  have hm := f.hemin
  have e1 : (2 : ℝ) ^ (f.emin + 1) = 2 * 2 ^ f.emin := by rw [zpow_add₀ (by norm_num)]; norm_num; ring
  have l1 : (2 : ℝ) ^ (f.emin + 1) ≤ 1 := zpow_le_one_of_nonpos₀ (by norm_num) (by omega)
  have p0 := two_zpow_pos f.emin
  obtain ⟨h, hh, hv⟩ := exists_of_isRep L (v := 1 / 2) (by
    have := isRep_two_zpow (f := f) (e := -1) (by omega)
    rwa [show (2 : ℝ) ^ (-1 : ℤ) = 1 / 2 by norm_num] at this) (hlim (by norm_num) (by norm_num))
  obtain ⟨a, ha, av⟩ := exists_of_isRep L (isRep_two_zpow (f := f) (e := f.emin) le_rfl) (hlim p0.le (by linarith))
  obtain ⟨c, hc, cv⟩ := exists_of_isRep L (isRep_two_zpow (f := f) (e := f.emin + 1) (by omega)) (hlim (by positivity) l1)
  -- one step from a finite past
  have step : ∀ {u z : Fl L} {r : ℝ}, u.Finite → z.Finite → rnd f (h.toReal * u.toReal) = r → |r| ≤ 1 →
      ((h *. u) -. zero *. z).Finite ∧ ((h *. u) -. zero *. z).toReal = r := by
    intro u z r hu hz hr hl
    have n1 : FP.NoOvf f (h.toReal * u.toReal) := by unfold FP.NoOvf; rw [hr]; exact lt_of_le_of_lt hl (FP.one_lt_lim f)
    obtain ⟨m1, m2⟩ := mul_val hh hu n1
    obtain ⟨k1, k2⟩ := mul_val (L := L) zero_finite hz (by
      rw [zero_toReal, zero_mul]; unfold FP.NoOvf; rw [rnd_zero, _root_.abs_zero]; exact FP.lim_pos f)
    rw [zero_toReal, zero_mul, rnd_zero] at k2
    obtain ⟨d1, d2⟩ := sub_val m1 k1 (by rw [k2, sub_zero]; exact noOvf_toReal _)
    refine ⟨d1, ?_⟩
    rw [d2, k2, sub_zero, rnd_of_isRep (isRep_toReal _), m2, hr]
  let s : OnePole (Fl L) := { (OnePole.new : OnePole (Fl L)) with b0 := h, a1 := zero }
  have run : ∀ {u : Fl L} {r : ℝ}, u.Finite → rnd f (h.toReal * u.toReal) = r → |r| ≤ 1 →
      ∃ y : ℕ → Fl L, (∀ b, Responds b s.clear (fun _ => u) y) ∧ ∀ n, (y n).Finite ∧ (y n).toReal = r := by
    intro u r hu hr hl
    let y : ℕ → Fl L := fun n => Nat.rec ((h *. u) -. zero *. zero) (fun _ z => (h *. u) -. zero *. z) n
    have hy : ∀ n, (y n).Finite ∧ (y n).toReal = r := by
      intro n
      induction n with
      | zero => exact step hu zero_finite hr hl
      | succ n ih => exact step hu ih.1 hr hl
    refine ⟨y, fun b => (OnePole.responds_iff s.clear).mpr fun n => ?_, hy⟩
    cases n <;> rfl
  have ra : rnd f (h.toReal * a.toReal) = 0 := by
    rw [hv, av, show (1 / 2 : ℝ) * 2 ^ f.emin = 2 ^ f.emin / 2 by ring, rnd_half_smallest]
  have rc : rnd f (h.toReal * c.toReal) = 2 ^ f.emin := by
    rw [hv, cv, e1, show (1 / 2 : ℝ) * (2 * 2 ^ f.emin) = 2 ^ f.emin by ring]
    exact rnd_of_isRep (isRep_two_zpow le_rfl)
  obtain ⟨y, hy1, hy2⟩ := run ha ra (by simp)
  obtain ⟨y', hy1', hy2'⟩ := run hc rc (by rw [abs_of_pos p0]; linarith)
  exact ⟨s, hv, rfl, fun _ => a, fun _ => c, y, y', fun _ => ⟨ha, hc, fun _ => ⟨ha, by rw [av, cv, e1, pow_one]⟩⟩, av,
    fun b => ⟨hy1 b, hy1' b, fun n => ⟨(hy2 n).1, (hy2' n).1, (hy2 n).2, (hy2' n).2⟩⟩⟩

/-- The conditions can be met: a OneZero with coefficients 1 and 1 and a constant input of 1, turned up to 2. -/
example (L : Libm f) (b : Build) (h2 : |(2 : ℝ)| < f.lim) : ∃ x x' y : ℕ → Fl L, (∀ n, (x n).Louder 1 (x' n)) ∧ (∀ n, (x' n).Finite) ∧
    let s : OneZero (Fl L) := { (OneZero.new : OneZero (Fl L)) with b0 := one, b1 := one }
    Responds b s.clear x y ∧ ∀ n, NoUnderflow s.b0 (x n) ∧ NoUnderflow s.b1 (x n) := by
  obtain ⟨d, hd, dv⟩ := exists_of_isRep L (v := 2) (by
    have := isRep_two_zpow (f := f) (e := 1) (by have := f.hemin; omega)
    simpa using this) h2
  have hu : NoUnderflow (one : Fl L) one := by
    right
    rw [one_toReal, mul_one, abs_one]
    exact zpow_le_one_of_nonpos₀ (by norm_num) (by have := f.hemin; omega)
  refine ⟨fun _ => one, fun _ => d, fun n => one *. one +. one *. before zero (fun _ => one) n, fun _ _ => ⟨one_finite, by simp [dv]⟩, fun _ => hd, ?_, fun _ => ⟨hu, hu⟩⟩
  exact (OneZero.responds_iff _).mpr fun n => rfl

end Rasp
