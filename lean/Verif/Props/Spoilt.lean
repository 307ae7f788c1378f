import Verif.Spec.Spoilt
import Verif.Props.Automation
import Verif.Props.Feedback
import Verif.Props.LinearInt
import Verif.Props.LinearClose
import Verif.Lemmas.NotFinite
import Verif.Lemmas.Rbj

/-!
# C141: non-finite samples in filters and delay lines
-/

namespace Rasp
open FloatOps
variable {f : Fmt} {L : Libm f} {b : Build}

/-! ## Recursive filters -/

section recursive
variable {σ π : Type} [Processor σ (Fl L)]

theorem spoilt_of_step {set : σ → π → σ} (B N : σ → Prop) (ht : NeverPanics (T := Fl L) σ)
    (hB : ∀ b s p x s' y, Processor.process b (set s p) x = .ok (s', y) →
      ((B s ∨ ¬ x.Finite → ¬ y.Finite) ∧ (¬ y.Finite → B s')) ∧ ((N s ∨ x.IsNaN → y.IsNaN) ∧ (y.IsNaN → N s')))
    (s : σ) : SpoiltForGood set s := by
  refine ⟨fun b c x => Automated.exists ht b set s c x, ?_⟩
  rintro b c x y ⟨st, h0, hst⟩ k n hn
  have step := fun n => hB b _ _ _ _ _ (hst n)
  constructor
  · intro hk
    have hk' : ¬ (y k).Finite := hk.elim (fun h => (step k).1.1 (.inr h)) id
    induction n, hn using Nat.le_induction with
    | base => exact hk'
    | succ n hn ih => exact (step (n + 1)).1.1 (.inl ((step n).1.2 ih))
  · intro hk
    have hk' : (y k).IsNaN := hk.elim (fun h => (step k).2.1 (.inr h)) id
    induction n, hn using Nat.le_induction with
    | base => exact hk'
    | succ n hn ih => exact (step (n + 1)).2.1 (.inl ((step n).2.2 ih))

/-- Parameters that stay are a special case. -/
theorem SpoiltForGood.stays {set : σ → Unit → σ} (hset : ∀ s p, set s p = s) {s : σ} (h : SpoiltForGood set s) : StaysSpoilt s := by
  have e : ∀ (b : Build) (x y : ℕ → Fl L), Automated b set s (fun _ => ()) x y ↔ Responds b s x y := by
    intro b x y
    unfold Automated Responds
    simp only [hset]
  refine ⟨fun b x => ?_, fun b x y hy => h.2 b (fun _ => ()) x y ((e b x y).mpr hy)⟩
  obtain ⟨y, hy⟩ := h.1 b (fun _ => ()) x
  exact ⟨y, (e b x y).mp hy⟩

end recursive

theorem onePole_bad {b0 a1 x v : Fl L} :
    (¬ v.Finite ∨ ¬ x.Finite → ¬ (b0 *. x -. a1 *. v).Finite) ∧ (v.IsNaN ∨ x.IsNaN → (b0 *. x -. a1 *. v).IsNaN) :=
  ⟨fun h => h.elim (fun h => Fl.sub_not_finite_of_right (Fl.mul_not_finite_right h))
      (fun h => Fl.sub_not_finite_left (Fl.mul_not_finite_right h)),
    fun h => h.elim (fun h => Fl.sub_nan_right (Fl.mul_nan_right h)) (fun h => Fl.sub_nan_left (Fl.mul_nan_right h))⟩

theorem onePole_step {π : Type} {set : OnePole (Fl L) → π → OnePole (Fl L)} (hset : ∀ s p, (set s p).y_z1 = s.y_z1) (s : OnePole (Fl L)) :
    SpoiltForGood set s := by
  refine spoilt_of_step (fun s => ¬ s.y_z1.Finite) (fun s => s.y_z1.IsNaN) (fun _ _ _ => ⟨_, _, rfl⟩) ?_ s
  intro b s p x s' y h
  obtain ⟨rfl, rfl⟩ := Prod.mk.inj (Except.ok.inj h)
  rw [← hset s p]
  exact ⟨⟨onePole_bad.1, id⟩, onePole_bad.2, id⟩

theorem twoPole_step {π : Type} {set : TwoPole (Fl L) → π → TwoPole (Fl L)} (hset : ∀ s p, (set s p).y_z1 = s.y_z1) (s : TwoPole (Fl L)) :
    SpoiltForGood set s := by
  refine spoilt_of_step (fun s => ¬ s.y_z1.Finite) (fun s => s.y_z1.IsNaN) (fun _ _ _ => ⟨_, _, rfl⟩) ?_ s
  intro b s p x s' y h
  obtain ⟨rfl, rfl⟩ := Prod.mk.inj (Except.ok.inj h)
  rw [← hset s p]
  exact ⟨⟨fun h => Fl.sub_not_finite_left (onePole_bad.1 h), id⟩, fun h => Fl.sub_nan_left (onePole_bad.2 h), id⟩

theorem biquad1_step {π : Type} {set : Biquad1 (Fl L) → π → Biquad1 (Fl L)} (hset : ∀ s p, (set s p).y_z1 = s.y_z1) (s : Biquad1 (Fl L)) :
    SpoiltForGood set s := by
  refine spoilt_of_step (fun s => ¬ s.y_z1.Finite) (fun s => s.y_z1.IsNaN) (fun _ _ _ => ⟨_, _, rfl⟩) ?_ s
  intro b s p x s' y h
  obtain ⟨rfl, rfl⟩ := Prod.mk.inj (Except.ok.inj h)
  rw [← hset s p]
  refine ⟨⟨fun h => Fl.sub_not_finite_left ?_, id⟩, fun h => Fl.sub_nan_left ?_, id⟩
  · rcases h with h | h
    · exact Fl.sub_not_finite_of_right (Fl.mul_not_finite_right h)
    · exact Fl.sub_not_finite_left (Fl.add_not_finite_left (Fl.add_not_finite_left (Fl.mul_not_finite_right h)))
  · rcases h with h | h
    · exact Fl.sub_nan_right (Fl.mul_nan_right h)
    · exact Fl.sub_nan_left (Fl.add_nan_left (Fl.add_nan_left (Fl.mul_nan_right h)))

theorem biquad2_step {π : Type} {set : Biquad2 (Fl L) → π → Biquad2 (Fl L)} (hset : ∀ s p, (set s p).z1 = s.z1) (s : Biquad2 (Fl L)) :
    SpoiltForGood set s := by
  refine spoilt_of_step (fun s => ¬ s.z1.Finite) (fun s => s.z1.IsNaN) (fun _ _ _ => ⟨_, _, rfl⟩) ?_ s
  intro b s p x s' y h
  obtain ⟨rfl, rfl⟩ := Prod.mk.inj (Except.ok.inj h)
  rw [← hset s p]
  refine ⟨⟨fun h => ?_, fun h => Fl.sub_not_finite_of_right (Fl.mul_not_finite_right h)⟩, fun h => ?_, fun h => Fl.sub_nan_right (Fl.mul_nan_right h)⟩
  · exact h.elim Fl.add_not_finite_right (fun h => Fl.add_not_finite_left (Fl.mul_not_finite_right h))
  · exact h.elim Fl.add_nan_right (fun h => Fl.add_nan_left (Fl.mul_nan_right h))

/-- **C141.** The recursive filters, in any state and with `set_coefficients` called with anything before every sample: one sample that
is not finite, or one overflow, and no later output is finite again. New coefficients do not help; only `clear` does (C06). -/
theorem C141_recursive (s1 : OnePole (Fl L)) (s2 : TwoPole (Fl L)) (s3 : Biquad1 (Fl L)) (s4 : Biquad2 (Fl L)) :
    SpoiltForGood (fun s (c : Fl L × Fl L) => s.setCoefficients c.1 c.2) s1 ∧
    SpoiltForGood (fun s (c : Fl L × Fl L × Fl L) => s.setCoefficients c.1 c.2.1 c.2.2) s2 ∧
    SpoiltForGood (fun s (c : Coef (Fl L)) => s.setCoefficients c.b0 c.b1 c.b2 c.a1 c.a2) s3 ∧
    SpoiltForGood (fun s (c : Coef (Fl L)) => s.setCoefficients c.b0 c.b1 c.b2 c.a1 c.a2) s4 ∧
    StaysSpoilt s1 ∧ StaysSpoilt s2 ∧ StaysSpoilt s3 ∧ StaysSpoilt s4 :=
  ⟨onePole_step (set := fun s (c : Fl L × Fl L) => s.setCoefficients c.1 c.2) (fun _ _ => rfl) s1,
    twoPole_step (set := fun s (c : Fl L × Fl L × Fl L) => s.setCoefficients c.1 c.2.1 c.2.2) (fun _ _ => rfl) s2,
    biquad1_step (set := fun s (c : Coef (Fl L)) => s.setCoefficients c.b0 c.b1 c.b2 c.a1 c.a2) (fun _ _ => rfl) s3,
    biquad2_step (set := fun s (c : Coef (Fl L)) => s.setCoefficients c.b0 c.b1 c.b2 c.a1 c.a2) (fun _ _ => rfl) s4,
    (onePole_step (set := fun s _ => s) (fun _ _ => rfl) s1).stays (fun _ _ => rfl),
    (twoPole_step (set := fun s _ => s) (fun _ _ => rfl) s2).stays (fun _ _ => rfl),
    (biquad1_step (set := fun s _ => s) (fun _ _ => rfl) s3).stays (fun _ _ => rfl),
    (biquad2_step (set := fun s _ => s) (fun _ _ => rfl) s4).stays (fun _ _ => rfl)⟩

theorem StaysSpoilt.wrap {σ τ : Type} [Processor σ (Fl L)] [Processor τ (Fl L)] {s : σ} {t : τ} (h : StaysSpoilt t)
    (e : ∀ (b : Build) (x y : ℕ → Fl L), Responds b s x y ↔ Responds b t x y) : StaysSpoilt s := by
  refine ⟨fun b x => ?_, fun b x y hy => h.2 b x y ((e b x y).mp hy)⟩
  obtain ⟨y, hy⟩ := h.1 b x
  exact ⟨y, (e b x y).mpr hy⟩

/-- **C141.** The rbj filters, in any state and with any coefficients, as long as the coefficients stay. (Setting them clears the filter,
C37.) -/
theorem C141_rbj (s1 : LowPass (Fl L)) (s2 : HighPass (Fl L)) (s3 : BandPass1 (Fl L)) (s4 : BandPass2 (Fl L)) (s5 : BandStop (Fl L))
    (s6 : AllPass (Fl L)) (s7 : Peak (Fl L)) (s8 : LowShelf (Fl L)) (s9 : HighShelf (Fl L)) :
    StaysSpoilt s1 ∧ StaysSpoilt s2 ∧ StaysSpoilt s3 ∧ StaysSpoilt s4 ∧ StaysSpoilt s5 ∧ StaysSpoilt s6 ∧ StaysSpoilt s7 ∧
    StaysSpoilt s8 ∧ StaysSpoilt s9 := by
  have h : ∀ s : Biquad2 (Fl L), StaysSpoilt s := fun s =>
    (biquad2_step (set := fun s _ => s) (fun _ _ => rfl) s).stays (fun _ _ => rfl)
  exact ⟨(h _).wrap fun _ _ _ => s1.responds_iff, (h _).wrap fun _ _ _ => s2.responds_iff, (h _).wrap fun _ _ _ => s3.responds_iff,
    (h _).wrap fun _ _ _ => s4.responds_iff, (h _).wrap fun _ _ _ => s5.responds_iff, (h _).wrap fun _ _ _ => s6.responds_iff,
    (h _).wrap fun _ _ _ => s7.responds_iff, (h _).wrap fun _ _ _ => s8.responds_iff, (h _).wrap fun _ _ _ => s9.responds_iff⟩

/-- One infinity at the start: setting both coefficients to zero afterwards and feeding silence does not bring the output back. -/
example (b : Build) : ∃ (c : ℕ → Fl L × Fl L) (x y : ℕ → Fl L),
    Automated b (fun s c => s.setCoefficients c.1 c.2) (OnePole.new : OnePole (Fl L)) c x y ∧
      (∀ n, 0 < n → (c n).1 = zero ∧ (c n).2 = zero ∧ x n = zero) ∧ ∀ n, ¬ (y n).Finite := by
  obtain ⟨h1, h2⟩ := (C141_recursive (OnePole.new : OnePole (Fl L)) TwoPole.new Biquad1.new Biquad2.new).1
  obtain ⟨y, hy⟩ := h1 b (fun n => if n = 0 then (one, zero) else (zero, zero)) (fun n => if n = 0 then Fl.inf L false else zero)
  refine ⟨_, _, y, hy, fun n hn => ?_, fun n => (h2 b _ _ y hy 0 n (Nat.zero_le n)).1 (.inl ?_)⟩
  · simp only [if_neg (show n ≠ 0 by omega)]
    exact ⟨trivial, trivial, trivial⟩
  · exact Fl.inf_not_finite _

/-! ## Feedforward filters -/

/-- **C141.** The feedforward filters, in any state and with `set_coefficients` called with anything before every sample: a sample that is
not finite spoils its own output and the next one (`TwoZero`: the next two), whatever the coefficients, and no other. -/
theorem C141_feedforward (s1 : OneZero (Fl L)) (s2 : TwoZero (Fl L)) :
    SpoiltFor 1 (fun s (c : Fl L × Fl L) => s.setCoefficients c.1 c.2) s1 ∧
    SpoiltFor 2 (fun s (c : Fl L × Fl L × Fl L) => s.setCoefficients c.1 c.2.1 c.2.2) s2 := by
  constructor
  · refine ⟨fun b c x => Automated.exists (fun _ _ _ => ⟨_, _, rfl⟩) b _ s1 c x, ?_⟩
    have key : ∀ b (c : ℕ → Fl L × Fl L) x y,
        Automated b (fun s (c : Fl L × Fl L) => s.setCoefficients c.1 c.2) s1 c x y →
        ∀ n, y n = (c n).1 *. x n +. (c n).2 *. before s1.x_z1 x n := by
      rintro b c x y ⟨st, h0, h⟩ n
      obtain ⟨-, e⟩ := Prod.mk.inj (Except.ok.inj (h n))
      have e2 : (st n).x_z1 = before s1.x_z1 x n := by
        cases n with
        | zero => rw [h0]; rfl
        | succ n =>
          obtain ⟨e1, -⟩ := Prod.mk.inj (Except.ok.inj (h n))
          rw [← e1]; rfl
      rw [← e, ← e2]; rfl
    intro b c x y hy k
    have ey := key b c x y hy
    refine ⟨fun hk n h1 h2 => ?_, fun x' y' hy' hx n hn => ?_⟩
    · rw [ey]
      obtain rfl | rfl : n = k ∨ n = k + 1 := by omega
      · exact Fl.add_not_finite_left (Fl.mul_not_finite_right hk)
      · exact Fl.add_not_finite_right (Fl.mul_not_finite_right hk)
    · rw [ey, key b c x' y' hy', hx n (by omega)]
      cases n with
      | zero => rfl
      | succ n => rw [show before s1.x_z1 x' (n + 1) = x' n from rfl, show before s1.x_z1 x (n + 1) = x n from rfl, hx n (by omega)]
  · refine ⟨fun b c x => Automated.exists (fun _ _ _ => ⟨_, _, rfl⟩) b _ s2 c x, ?_⟩
    have key : ∀ b (c : ℕ → Fl L × Fl L × Fl L) x y,
        Automated b (fun s (c : Fl L × Fl L × Fl L) => s.setCoefficients c.1 c.2.1 c.2.2) s2 c x y →
        ∀ n, y n = (c n).1 *. x n +. (c n).2.1 *. before s2.x_z1 x n +. (c n).2.2 *. before s2.x_z2 (before s2.x_z1 x) n := by
      rintro b c x y ⟨st, h0, h⟩ n
      obtain ⟨-, e⟩ := Prod.mk.inj (Except.ok.inj (h n))
      have e1 : ∀ n, (st n).x_z1 = before s2.x_z1 x n := by
        intro n
        cases n with
        | zero => rw [h0]; rfl
        | succ n =>
          obtain ⟨e1, -⟩ := Prod.mk.inj (Except.ok.inj (h n))
          rw [← e1]; rfl
      have e2 : (st n).x_z2 = before s2.x_z2 (before s2.x_z1 x) n := by
        cases n with
        | zero => rw [h0]; rfl
        | succ n =>
          obtain ⟨e3, -⟩ := Prod.mk.inj (Except.ok.inj (h n))
          rw [← e3]; exact e1 n
      rw [← e, ← e2, ← e1]; rfl
    intro b c x y hy k
    have ey := key b c x y hy
    refine ⟨fun hk n h1 h2 => ?_, fun x' y' hy' hx n hn => ?_⟩
    · rw [ey]
      obtain rfl | rfl | rfl : n = k ∨ n = k + 1 ∨ n = k + 2 := by omega
      · exact Fl.add_not_finite_left (Fl.add_not_finite_left (Fl.mul_not_finite_right hk))
      · exact Fl.add_not_finite_left (Fl.add_not_finite_right (Fl.mul_not_finite_right hk))
      · exact Fl.add_not_finite_right (Fl.mul_not_finite_right hk)
    · rw [ey, key b c x' y' hy', hx n (by omega)]
      match n with
      | 0 => rfl
      | 1 => simp only [before]; rw [hx 0 (by omega)]
      | n + 2 => simp only [before]; rw [hx n (by omega), hx (n + 1) (by omega)]

/-! ## LinearDelay -/

section linear
variable {L32 : Libm binary32}

theorem interp_finite_iff {a c om al : Fl L} (ho : om.Finite) (ho1 : om.toReal = 1) (hal : al.Finite) (hal0 : al.toReal = 0) :
    ((a *. om) +. (c *. al)).Finite ↔ a.Finite ∧ c.Finite := by
  constructor
  · intro h
    constructor <;> by_contra hc
    · exact Fl.add_not_finite_left (Fl.mul_not_finite_left hc) h
    · exact Fl.add_not_finite_right (Fl.mul_not_finite_left hc) h
  · rintro ⟨ha, hc⟩
    obtain ⟨p1, p2⟩ := Fl.mul_val ha ho (by rw [ho1, mul_one]; exact Fl.noOvf_toReal a)
    obtain ⟨q1, q2⟩ := Fl.mul_val hc hal (by rw [hal0, mul_zero]; exact noOvf_zero)
    rw [ho1, mul_one, rnd_of_isRep (Fl.isRep_toReal a)] at p2
    rw [hal0, mul_zero, rnd_zero] at q2
    exact (Fl.add_val p1 q1 (by rw [p2, q2, add_zero]; exact Fl.noOvf_toReal a)).1

/-- **C141.** A `LinearDelay` set to a whole delay `k` on a line of at most 2^24 slots, in any reachable state without pending `next_out`:
it is not a `Delay` for samples that are not finite. An output is finite exactly when two samples are, the one `k` steps back and its
neighbour: the one `k - 1` steps back, or for delay 0 the *oldest* one on the line, `max_delay` steps back. When both are finite it is
(`==`) the sample `k` steps back. -/
theorem C141_linear [Target] {s : LinearDelay (Fl L32) (Fl L)} (hs : LinearDelay.Reachable b s)
    (hd : s.do_next_out = true) (hl : s.memory.length ≤ 2 ^ 24) {h : List (Fl L)} (hst : s.Stores b h) {k : ℕ} (hk : k < h.length) :
    ∃ s', s.setDelay b (ofUsize k) = .ok s' ∧ ∀ x, ∃ y, Responds b s' x y ∧ ∀ n,
      let here := delayedBy k h x n
      let neighbour := delayedBy (if k = 0 then h.length - 1 else k - 1) h x n
      ((y n).Finite ↔ here.Finite ∧ neighbour.Finite) ∧ (here.Finite → neighbour.Finite → Fl.eq (y n) here = true) := by
  have hi := hs.winv
  obtain rfl := hst.eq hi.stores
  obtain ⟨s', h1, he, a1, a2, o1, o2⟩ := setDelay_int (b := b) hi hl (by simpa using hk)
  obtain ⟨hmem, hw, -, hdn, -⟩ := LinearDelay.setDelay_frame h1
  have hi' : s'.WInv := ⟨by rw [hmem, hw]; exact hi.hw, by rw [hmem]; exact hi.cap⟩
  have hhist : s'.hist = s.hist := by unfold LinearDelay.hist; rw [hmem, hw]
  have hlen : s.hist.length = s'.memory.length := by rw [hmem]; simp
  refine ⟨s', h1, fun x => ⟨_, LinearDelay.responds (b := b) hi' he (hdn.trans hd) x, fun n => ?_⟩⟩
  intro here neighbour
  rw [hhist]
  have hn : delayedBy (older s'.memory.length k) s.hist x n = neighbour := by
    show _ = delayedBy (if k = 0 then s.hist.length - 1 else k - 1) s.hist x n
    rw [hlen]; rfl
  rw [hn]
  exact ⟨interp_finite_iff o1 o2 a1 a2, fun g1 g2 => interp_int g1 g2 o1 o2 a1 a2⟩

/-! ## Feedback loops -/

theorem passesOn_comb (g : Fl L) : PassesOn (fun x v : Fl L => x +. g *. v) := by
  intro x v h
  constructor <;> by_contra hc
  · exact Fl.add_not_finite_left hc h
  · exact Fl.add_not_finite_right (Fl.mul_not_finite_right hc) h

/-- **C141.** A `Delay` in a feedback loop, in any reachable state after `set_delay d`, with any way `c` of combining input and fed-back
sample that loses no infinities and NaNs: a sample that is not finite comes back every `e` samples forever, where `e` is the length of
the loop (C92), and no other sample depends on it. -/
theorem C141_delay_loop [Target] {s : Delay (Fl L)} (hs : Delay.Reachable b s) {h : List (Fl L)} (hst : s.Stores b h) (d : ℕ)
    {c : Fl L → Fl L → Fl L} (hc : PassesOn c) :
    ∃ s' e, s.setDelay b d = .ok s' ∧ e = (if min d (h.length - 1) = 0 then h.length else min d (h.length - 1)) ∧
      ∀ x, (∃ u v r, FeedbackLoop b Delay.announce c s' x u v r) ∧ ∀ u v r, FeedbackLoop b Delay.announce c s' x u v r → ∀ k,
        (¬ (x k).Finite ∨ ¬ (u k).Finite → ∀ j, ¬ (u (k + j * e)).Finite) ∧
        ∀ x' u' v' r', FeedbackLoop b Delay.announce c s' x' u' v' r' → (∀ n, n ≠ k → x' n = x n) →
          ∀ n, (∀ j, n ≠ k + j * e) → u' n = u n := by
  obtain ⟨s', hset, -, -⟩ := C92_delay_reachable hs hst d c (fun _ => zero)
  refine ⟨s', _, hset, rfl, fun x => ?_⟩
  have hlen : h.length ≠ 0 := by
    obtain ⟨⟨mx, -, hl⟩, -⟩ := hst
    omega
  have all : ∀ x, (∃ u v r, FeedbackLoop b Delay.announce c s' x u v r) ∧ ∀ u v r, FeedbackLoop b Delay.announce c s' x u v r → ∀ n,
      u n = c (x n) (delayedBy (if min d (h.length - 1) = 0 then h.length else min d (h.length - 1)) h u n) := by
    intro x
    obtain ⟨s2, hset2, he, hl⟩ := C92_delay_reachable hs hst d c x
    obtain rfl : s2 = s' := Except.ok.inj (hset2.symm.trans hset)
    exact ⟨he, fun u v r hu n => by rw [((hl u v r).mp hu n).2.1, ((hl u v r).mp hu n).1]⟩
  have he : 1 ≤ (if min d (h.length - 1) = 0 then h.length else min d (h.length - 1)) := by split_ifs <;> omega
  generalize (if min d (h.length - 1) = 0 then h.length else min d (h.length - 1)) = e at all he ⊢
  refine ⟨(all x).1, fun u v r hu k => ⟨fun hk j => ?_, fun x' u' v' r' hu' hx n hn => ?_⟩⟩
  · have eu := (all x).2 u v r hu
    induction j with
    | zero =>
      rw [Nat.zero_mul, Nat.add_zero]
      refine hk.elim (fun hk hf => ?_) id
      rw [eu] at hf
      exact hk (hc _ _ hf).1
    | succ j ih =>
      intro hf
      rw [eu] at hf
      have := (hc _ _ hf).2
      rw [show k + (j + 1) * e = k + j * e + e by ring] at this
      unfold delayedBy at this
      rw [if_pos (Nat.le_add_left _ _), Nat.add_sub_cancel] at this
      exact ih this
  · have eu := (all x).2 u v r hu
    have eu' := (all x').2 u' v' r' hu'
    induction n using Nat.strong_induction_on with
    | _ n ih =>
      have h0 := hn 0
      rw [eu, eu', hx n (by simpa using h0)]
      congr 1
      unfold delayedBy
      split_ifs with hen
      · refine ih (n - e) (by omega) fun j hj => hn (j + 1) ?_
        have : (j + 1) * e = j * e + e := by ring
        omega
      · rfl

/-- Every number from `(e - 1) (e - 2)` on is a sum of `e`s and `e - 1`s. -/
theorem two_neighbours {e t : ℕ} (he : 2 ≤ e) (ht : (e - 1) * (e - 2) ≤ t) : ∃ p q, t = p * (e - 1) + q * e := by
  obtain ⟨d, rfl⟩ : ∃ d, e = d + 2 := ⟨e - 2, by omega⟩
  rw [show d + 2 - 1 = d + 1 by omega, show d + 2 - 2 = d by omega] at *
  have h1 := Nat.div_add_mod t (d + 1)
  have h2 := Nat.mod_lt t (show d + 1 > 0 by omega)
  have h3 : d ≤ t / (d + 1) := (Nat.le_div_iff_mul_le (Nat.succ_pos d)).mpr (by linarith [Nat.mul_comm (d + 1) d])
  obtain ⟨p, hp⟩ : ∃ p, t / (d + 1) = p + t % (d + 1) := ⟨t / (d + 1) - t % (d + 1), by omega⟩
  refine ⟨p, t % (d + 1), ?_⟩
  rw [hp] at h1
  nlinarith

/-- **C141.** A `LinearDelay` with any delay of at least 2 in a feedback loop, on a line of at most 2^24 slots, in any reachable state
without pending `next_out`, with any such `c`: one sample that is not finite takes over the whole loop. Every round spreads it to one more
neighbour, and from `(max_delay - 1) (max_delay - 2)` samples later on none of the samples in the loop is finite. -/
theorem C141_linear_loop [Target] {s : LinearDelay (Fl L32) (Fl L)} (hs : LinearDelay.ReachableVia b (fun n => n ≤ 2 ^ 24) s)
    (hnd : s.do_next_out = true) (hd : 2 ≤ s.getDelay.toReal) {m : ℕ} (hm : s.getMaxDelay b = .ok m) {c : Fl L → Fl L → Fl L}
    (hc : PassesOn c) (x : ℕ → Fl L) :
    (∃ u v r, FeedbackLoop b (LinearDelay.nextOut b) c s x u v r) ∧
    ∀ u v r, FeedbackLoop b (LinearDelay.nextOut b) c s x u v r → ∀ k, ¬ (x k).Finite ∨ ¬ (u k).Finite →
      ∀ n, k + (m - 1) * (m - 2) ≤ n → ¬ (u n).Finite := by
  obtain ⟨hex, hall⟩ := C92_linearDelay_ieee hs hd c x
  refine ⟨hex, fun u v r hu k hk n hn => ?_⟩
  obtain ⟨hr, hu, -⟩ := (hall u v r).mp hu
  obtain ⟨hi, hl, e, he, hfar, -⟩ := hs.finv
  have h2 := hfar hd
  have hv := hr.unique (LinearDelay.responds (b := b) hi he hnd u)
  have hlt := he.1
  have hme : e ≤ m := by
    obtain ⟨⟨mx, h1, h3⟩, -⟩ := hi.stores
    obtain rfl : mx = m := Except.ok.inj (h1.symm.trans hm)
    simp at h3
    omega
  have bad : ∀ n, ¬ (u n).Finite → ¬ (u (n + e)).Finite ∧ ¬ (u (n + (e - 1))).Finite := by
    intro n hn
    constructor
    · intro hf
      rw [hu] at hf
      have := (hc _ _ hf).2
      rw [hv] at this
      refine Fl.add_not_finite_left (Fl.mul_not_finite_left ?_) this
      unfold delayedBy
      rwa [if_pos (Nat.le_add_left _ _), Nat.add_sub_cancel]
    · intro hf
      rw [hu] at hf
      have := (hc _ _ hf).2
      rw [hv] at this
      refine Fl.add_not_finite_right (Fl.mul_not_finite_left ?_) this
      unfold older delayedBy
      rwa [if_neg (show e ≠ 0 by omega), if_pos (Nat.le_add_left _ _), Nat.add_sub_cancel]
  have bad2 : ∀ p n, ¬ (u n).Finite → ¬ (u (n + p * (e - 1))).Finite := by
    intro p
    induction p with
    | zero => intro n h; simpa using h
    | succ p ih =>
      intro n h
      rw [show n + (p + 1) * (e - 1) = n + p * (e - 1) + (e - 1) by ring]
      exact (bad _ (ih n h)).2
  have bad3 : ∀ q n, ¬ (u n).Finite → ¬ (u (n + q * e)).Finite := by
    intro q
    induction q with
    | zero => intro n h; simpa using h
    | succ q ih =>
      intro n h
      rw [show n + (q + 1) * e = n + q * e + e by ring]
      exact (bad _ (ih n h)).1
  have hk' : ¬ (u k).Finite := by
    refine hk.elim (fun hk hf => ?_) id
    rw [hu] at hf
    exact hk (hc _ _ hf).1
  have hmul : (e - 1) * (e - 2) ≤ (m - 1) * (m - 2) := Nat.mul_le_mul (by omega) (by omega)
  obtain ⟨p, q, hpq⟩ := two_neighbours (e := e) (t := n - k) h2 (by omega)
  rw [show n = k + p * (e - 1) + q * e by omega]
  exact bad3 q _ (bad2 p _ hk')

/-- One infinity at the start of a comb loop around a new `LinearDelay` of delay 5: from sample 12 on everything is lost. Around a
`Delay` of the same length it comes back every 5 samples and nothing else is touched. -/
example [Target] (L32 L : Libm binary32) (b : Build) (g : Fl L) :
    (∃ (s : LinearDelay (Fl L32) (Fl L)) (x u v r : ℕ → Fl L), LinearDelay.new b (ofUsize 5) 5 = .ok s ∧ (∀ n, 0 < n → x n = zero) ∧
      FeedbackLoop b (LinearDelay.nextOut b) (fun x v => x +. g *. v) s x u v r ∧ ∀ n, 12 ≤ n → ¬ (u n).Finite) ∧
    ∃ (s s' : Delay (Fl L)) (x u v r : ℕ → Fl L), Delay.new b 0 5 = .ok s ∧ s.setDelay b 5 = .ok s' ∧ (∀ n, 0 < n → x n = zero) ∧
      FeedbackLoop b Delay.announce (fun x v => x +. g *. v) s' x u v r ∧ ∀ j, ¬ (u (0 + j * 5)).Finite := by
  have hm : Allocatable (Fl L) 5 := by
    unfold Allocatable
    have : size (Fl L) = 4 := rfl
    rw [this]; have := target; omega
  have hx : ∀ n, 0 < n → (if n = 0 then Fl.inf L false else zero : Fl L) = zero := fun n hn => if_neg (by omega)
  constructor
  · obtain ⟨k1, k2⟩ := ofUsize_fp (L32 := L32) (n := 5) (by norm_num)
    rw [rnd_of_isRep (isRep32_nat (by norm_num))] at k2
    have ht : binary32.tiny ≤ 1 := by
      unfold Fmt.tiny
      show (2 : ℝ) ^ (-149 : ℤ) ≤ _
      norm_num
    have hov : 4 * (1 + binary32.tiny) ≤ 2 ^ binary32.emax := by
      show _ ≤ (2 : ℝ) ^ (127 : ℤ)
      norm_num; linarith
    obtain ⟨s, hs, -, hgd, -⟩ := C78_new_accurate (b := b) (L := L) (by decide) (by decide) hm (by norm_num) hov k1
      (δ := 5) (by rw [k2]; norm_num) (.inl (by norm_num))
    obtain ⟨hmem, -, hi, hdn, -⟩ := LinearDelay.new_frame hm hs
    have hmx : s.getMaxDelay b = .ok 5 := by
      obtain ⟨⟨mx, h1, h3⟩, -⟩ := hi.stores (b := b)
      rw [LinearDelay.hist_length, hmem, List.length_replicate] at h3
      obtain rfl : mx = 5 := by omega
      exact h1
    obtain ⟨⟨u, v, r, hu⟩, hb⟩ := C141_linear_loop (b := b) (.new hm hs (by rw [hmem, List.length_replicate]; norm_num)) hdn
      (by rw [hgd]; norm_num) hmx (passesOn_comb g) (fun n => if n = 0 then Fl.inf L false else zero)
    exact ⟨s, _, u, v, r, hs, hx, hu, fun n hn => hb u v r hu 0 (.inl (Fl.inf_not_finite _)) n (by omega)⟩
  · obtain ⟨s, hn, hi, -, -, hmem, -⟩ := Delay.new_spec (b := b) (d := 0) (T := Fl L) hm
    obtain ⟨s', e, hset, he, h⟩ := C141_delay_loop (b := b) (.new hm hn) hi.stores 5 (passesOn_comb g)
    rw [Delay.hist_length, hmem, List.length_replicate] at he
    obtain rfl : e = 5 := by simpa using he
    obtain ⟨⟨u, v, r, hu⟩, h⟩ := h (fun n => if n = 0 then Fl.inf L false else zero)
    exact ⟨s, s', _, u, v, r, hn, hset, hx, hu, (h u v r hu 0).1 (.inl (Fl.inf_not_finite _))⟩

end linear

end Rasp
