import Verif.Spec.Feedback
import Verif.Spec.Convolution
import Verif.Props.LinearObserve
import Verif.Props.Filters
import Mathlib.Analysis.Normed.Group.InfiniteSum
import Mathlib.Topology.Algebra.InfiniteSum.Real

/-!
# C92: delay lines in feedback loops
-/

namespace Rasp
open FloatOps

section general
variable {σ T : Type} [Processor σ T] {b : Build}

/-- Loops run forever when single rounds do. -/
theorem loop_exists {next : σ → Res (σ × T)} (Good : σ → Prop)
    (step : ∀ s, Good s → ∃ mid w, next s = .ok (mid, w) ∧ ∀ z, ∃ s' y, Processor.process b mid z = .ok (s', y) ∧ Good s')
    {s : σ} (hs : Good s) (f : T → T → T) (x : ℕ → T) : ∃ u v r, FeedbackLoop b next f s x u v r := by
  have : Nonempty T := let ⟨_, w, _⟩ := step s hs; ⟨w⟩
  have : Nonempty σ := ⟨s⟩
  choose! mid w hn s' y hp hg using step
  let st : ℕ → σ := fun n => Nat.rec s (fun k t => s' t (f (x k) (w t))) n
  have key : ∀ n, Good (st n) := by
    intro n
    induction n with
    | zero => exact hs
    | succ n ih => exact hg _ ih _
  exact ⟨fun n => f (x n) (w (st n)), fun n => w (st n), _, st, fun n => mid (st n), rfl, fun n =>
    ⟨hn _ (key n), rfl, hp _ (key n) _⟩⟩

/-- When `next_out` is a correct announcement and otherwise only an observation, the loop is the response of the line to
the combined samples. -/
theorem loop_iff {next : σ → Res (σ × T)} (Good : σ → Prop)
    (step : ∀ s, Good s → ∃ mid w, next s = .ok (mid, w) ∧ ∀ z, ∃ s', Processor.process b mid z = .ok (s', w) ∧
      Processor.process b s z = .ok (s', w) ∧ Good s')
    {s : σ} (hs : Good s) (f : T → T → T) (x u v r : ℕ → T) :
    FeedbackLoop b next f s x u v r ↔ Responds b s u v ∧ (∀ n, u n = f (x n) (v n)) ∧ r = v := by
  constructor
  · rintro ⟨st, mid, h0, h⟩
    have key : ∀ n, Good (st n) ∧ r n = v n ∧ Processor.process b (st n) (u n) = .ok (st (n + 1), v n) := by
      have one : ∀ n, Good (st n) → Good (st (n + 1)) ∧ r n = v n ∧ Processor.process b (st n) (u n) = .ok (st (n + 1), v n) := by
        intro n hg
        obtain ⟨m, w, h1, h2⟩ := step _ hg
        obtain ⟨h3, h4, h5⟩ := h n
        rw [h1] at h3
        cases h3
        obtain ⟨s', p1, p2, p3⟩ := h2 (u n)
        rw [p1] at h5
        simp only [Except.ok.injEq, Prod.mk.injEq] at h5
        obtain ⟨rfl, e⟩ := h5
        exact ⟨p3, e.symm, p2⟩
      have all : ∀ n, Good (st n) := by
        intro n
        induction n with
        | zero => exact h0 ▸ hs
        | succ n ih => exact (one n ih).1
      exact fun n => ⟨all n, (one n (all n)).2⟩
    exact ⟨⟨st, h0, fun n => (key n).2.2⟩, fun n => (h n).2.1, funext fun n => (key n).2.1⟩
  · rintro ⟨⟨st, h0, h⟩, hu, rfl⟩
    have all : ∀ n, Good (st n) := by
      intro n
      induction n with
      | zero => exact h0 ▸ hs
      | succ n ih =>
        obtain ⟨m, w, h1, h2⟩ := step _ ih
        obtain ⟨s', p1, p2, p3⟩ := h2 (u n)
        rw [h n] at p2
        cases p2
        exact p3
    have one : ∀ n, ∃ m, next (st n) = .ok (m, r n) ∧ Processor.process b m (u n) = .ok (st (n + 1), r n) := by
      intro n
      obtain ⟨m, w, h1, h2⟩ := step _ (all n)
      obtain ⟨s', p1, p2, p3⟩ := h2 (u n)
      rw [h n] at p2
      cases p2
      exact ⟨m, h1, p1⟩
    choose m hm using one
    exact ⟨st, m, h0, fun n => ⟨(hm n).1, hu n, (hm n).2⟩⟩

end general

/-! ## Delay -/

section delay
variable {T : Type} [FloatOps T] {b : Build}

/-- The states of a line while it processes `u`. -/
theorem Delay.along [Target] {s : Delay T} (h : s.Inv) {e : ℕ} (he : s.Eff e) {u r : ℕ → T} {st : ℕ → Delay T} (h0 : st 0 = s)
    (hst : ∀ n, (st n).process b (u n) = .ok (st (n + 1), r n)) (n : ℕ) :
    (st n).Inv ∧ (st n).Eff e ∧ (st n).memory.length = s.memory.length ∧
    ∀ k, k < s.memory.length → (st n).hist[k]? = some (if k < n then u (n - 1 - k) else s.hist.getD (k - n) zero) := by
  induction n with
  | zero =>
    refine ⟨h0 ▸ h, h0 ▸ he, by rw [h0], fun k hk => ?_⟩
    rw [h0, List.getElem?_eq_getElem (by simpa using hk)]
    simp [List.getD_eq_getElem?_getD, List.getElem?_eq_getElem (show k < s.hist.length by simpa using hk)]
  | succ n ih =>
    obtain ⟨h', he', hl, hh⟩ := ih
    obtain ⟨s2, y, hp, hi, hee, hhist, hy, -, -, hl2⟩ := Delay.process_spec (b := b) h' he' (u n)
    rw [hst n] at hp
    cases hp
    refine ⟨hi, hee, hl2.trans hl, fun k hk => ?_⟩
    rw [hhist]
    cases k with
    | zero => simp
    | succ k =>
      rw [List.getElem?_cons_succ, List.getElem?_dropLast, if_pos (by simp [hl]; omega), hh k (by omega)]
      congr 1
      by_cases hkn : k < n
      · rw [if_pos hkn, if_pos (by omega)]; congr 1; omega
      · rw [if_neg hkn, if_neg (by omega)]; congr 1; omega

theorem Delay.announced [Target] {s : Delay T} (h : s.Inv) {e : ℕ} (he : s.Eff e) {u r : ℕ → T} {st : ℕ → Delay T} (h0 : st 0 = s)
    (hst : ∀ n, (st n).process b (u n) = .ok (st (n + 1), r n)) (n : ℕ) :
    (st n).announce = .ok (st n, delayedBy (if e = 0 then s.memory.length else e) s.hist u n) := by
  obtain ⟨hi, hee, hl, hh⟩ := Delay.along h he h0 hst n
  obtain ⟨y, hy, hn⟩ := Delay.nextOut_spec hi hee
  have hw := h.hw
  have h1 := he.1
  unfold Delay.announce
  rw [hy, Res.ok_bind]
  rw [hl, hh _ (by split <;> omega)] at hn
  rw [← Option.some.inj hn]
  unfold delayedBy
  split_ifs <;> first | omega | (congr 3; omega)

theorem Delay.loop_iff [Target] {s : Delay T} (h : s.Inv) {e : ℕ} (he : s.Eff e) (f : T → T → T) (x u v r : ℕ → T) :
    FeedbackLoop b Delay.announce f s x u v r ↔ ∀ n, v n = delayedBy (if e = 0 then s.memory.length else e) s.hist u n ∧
      u n = f (x n) (v n) ∧ r n = delayedBy e s.hist u n := by
  constructor
  · rintro ⟨st, mid, h0, hl⟩
    have hm : ∀ n, mid n = st n := by
      intro n
      have := (hl n).1
      unfold Delay.announce at this
      rw [Res.bind_ok] at this
      obtain ⟨y, -, h2⟩ := this
      simp only [Except.ok.injEq, Prod.mk.injEq] at h2
      exact h2.1.symm
    have hst : ∀ n, (st n).process b (u n) = .ok (st (n + 1), r n) := fun n => hm n ▸ (hl n).2.2
    have hr : r = delayedBy e s.hist u := Responds.unique (b := b) ⟨st, h0, hst⟩ (Delay.responds h he u)
    intro n
    have ha := Delay.announced h he h0 hst n
    rw [(hl n).1] at ha
    simp only [Except.ok.injEq, Prod.mk.injEq] at ha
    exact ⟨ha.2, (hl n).2.1, congrFun hr n⟩
  · intro hl
    obtain ⟨st, h0, hst⟩ := Delay.responds (b := b) h he u
    refine ⟨st, st, h0, fun n => ⟨?_, (hl n).2.1, ?_⟩⟩
    · rw [(hl n).1]; exact Delay.announced h he h0 hst n
    · rw [(hl n).2.2]; exact hst n

theorem Delay.loop_exists [Target] {s : Delay T} (h : s.Inv) {e : ℕ} (he : s.Eff e) (f : T → T → T) (x : ℕ → T) :
    ∃ u v r, FeedbackLoop b Delay.announce f s x u v r := by
  refine Rasp.loop_exists (fun s => s.Inv ∧ s.Eff e) (fun s hs => ?_) ⟨h, he⟩ f x
  obtain ⟨y, hy, -⟩ := Delay.nextOut_spec hs.1 hs.2
  refine ⟨s, y, by unfold Delay.announce; rw [hy, Res.ok_bind], fun z => ?_⟩
  obtain ⟨s', r, hp, hi, hee, -⟩ := Delay.process_spec (b := b) hs.1 hs.2 z
  exact ⟨s', r, hp, hi, hee⟩

theorem delayedBy_silence (e n : ℕ) (x : ℕ → T) : delayedBy e (List.replicate n zero) x = lag x e := by
  rw [delayedBy_replicate]
  funext t
  unfold past lag
  split_ifs <;> first | omega | rfl

/-- **C92**. A new `Delay` in a loop, in any arithmetic and with any way `f` of combining the announced sample with the
input: the loop runs forever, and its streams are exactly those of the recursion `u[n] = f(x[n], u[n-e])`, where `e` is
the (clipped) delay. With delay 0 the announced sample is not the one `process` returns but the oldest one, so `e` is then
the number of slots, `m + 1`. -/
theorem C92_delay [Target] {d m : ℕ} (hm : Allocatable T m) (f : T → T → T) (x : ℕ → T) :
    ∃ s : Delay T, Delay.new b d m = .ok s ∧ (∃ u v r, FeedbackLoop b Delay.announce f s x u v r) ∧
      ∀ u v r, FeedbackLoop b Delay.announce f s x u v r ↔ ∀ n,
        v n = lag u (if min d m = 0 then m + 1 else min d m) n ∧ u n = f (x n) (v n) ∧ r n = lag u (min d m) n := by
  obtain ⟨s, hn, hi, he, -, hmem, hw, -⟩ := Delay.new_spec (b := b) (d := d) hm
  refine ⟨s, hn, Delay.loop_exists hi he f x, fun u v r => ?_⟩
  rw [Delay.loop_iff hi he]
  have hh : s.hist = List.replicate (m + 1) zero := by
    unfold Delay.hist; rw [hmem, histOf_replicate]
  have hl : s.memory.length = m + 1 := by simp [hmem]
  rw [hh, hl, delayedBy_silence, delayedBy_silence]

/-- **C92**. The same in any reachable state after `set_delay d`, the line holding `h` (newest first). -/
theorem C92_delay_reachable [Target] {s : Delay T} (hs : Delay.Reachable b s) {h : List T} (hst : s.Stores b h) (d : ℕ)
    (f : T → T → T) (x : ℕ → T) :
    ∃ s', s.setDelay b d = .ok s' ∧ (∃ u v r, FeedbackLoop b Delay.announce f s' x u v r) ∧
      ∀ u v r, FeedbackLoop b Delay.announce f s' x u v r ↔ ∀ n,
        v n = delayedBy (if min d (h.length - 1) = 0 then h.length else min d (h.length - 1)) h u n ∧ u n = f (x n) (v n) ∧
        r n = delayedBy (min d (h.length - 1)) h u n := by
  obtain ⟨hi, -⟩ := hs.inv
  obtain rfl := hst.eq hi.stores
  obtain ⟨s2, hp, hi2, he2, -, hm2, hw2, -⟩ := Delay.setDelay_spec (b := b) hi.hw hi.cap d
  have hh : s2.hist = s.hist := by unfold Delay.hist; rw [hm2, hw2]
  refine ⟨s2, hp, Delay.loop_exists hi2 he2 f x, fun u v r => ?_⟩
  rw [Delay.loop_iff hi2 he2, hh, hm2, Delay.hist_length]

end delay

/-! ## LinearDelay -/

/-- **C92**. A new `LinearDelay` with (clipped) delay at least 1 in a loop, in exact arithmetic: the loop runs forever, and
its streams are exactly those of the recursion through the interpolated past `u` delayed by `d`. -/
theorem C92_linearDelay [Target] {b : Build} {m : ℕ} (hm : Allocatable ℝ m) (hm1 : 1 ≤ m) {d : ℝ} (hd : 1 ≤ d) (f : ℝ → ℝ → ℝ) (x : ℕ → ℝ) :
    ∃ s : LinearDelay ℝ ℝ, LinearDelay.new b d m = .ok s ∧ (∃ u v r, FeedbackLoop b (LinearDelay.nextOut b) f s x u v r) ∧
      ∀ u v r, FeedbackLoop b (LinearDelay.nextOut b) f s x u v r ↔ ∀ n,
        v n = interp (min d m) [] u n ∧ u n = f (x n) (v n) ∧ r n = v n := by
  obtain ⟨s, hn, hgd, hr⟩ := C20_new_interpolates (b := b) hm d
  have hm1' : (1 : ℝ) ≤ m := by exact_mod_cast hm1
  have hc : max 0 (min d m) = min d (m : ℝ) := max_eq_right (by positivity)
  rw [hc] at hgd
  simp only [hc] at hr
  let Good := fun t : LinearDelay ℝ ℝ => LinearDelay.Reachable b t ∧ t.getDelay = min d m
  have step : ∀ t, Good t → ∃ mid w, t.nextOut b = .ok (mid, w) ∧ ∀ z, ∃ s', Processor.process b mid z = .ok (s', w) ∧
      Processor.process b t z = .ok (s', w) ∧ Good s' := by
    rintro t ⟨ht, hg⟩
    obtain ⟨⟨mid, o⟩, h1⟩ := C24_never_panics_real ht (op := .nextOut) trivial
    simp only [LinearDelay.step, Res.bind_ok] at h1
    obtain ⟨⟨mid', w⟩, h1, h2⟩ := h1
    cases h2
    refine ⟨mid', w, h1, fun z => ?_⟩
    have ho := LinearDelay.observe_real ht (by rw [hg]; exact le_min hd hm1') h1 z
    obtain ⟨hi, ⟨e, he, -⟩, -⟩ := ht.rinv
    obtain rfl := LinearDelay.nextOut_frame h1
    obtain ⟨s', hp, hnx⟩ := LinearDelay.process_cached (b := b) (s := { t with next_out := w, do_next_out := false })
      ⟨hi.hw, hi.cap⟩ (he.lt hi.hw) rfl z
    rw [hp] at ho
    exact ⟨s', hp, ho, .step ht (op := .process z) trivial (o := .sample w) (by simp only [LinearDelay.step, ho, Res.ok_bind]),
      hnx.delay.trans hg⟩
  have hs : Good s := ⟨.new hm hn, hgd⟩
  refine ⟨s, hn, loop_exists Good (fun t ht => ?_) hs f x, fun u v r => ?_⟩
  · obtain ⟨mid, w, h1, h2⟩ := step t ht
    refine ⟨mid, w, h1, fun z => ?_⟩
    obtain ⟨s', p, -, g⟩ := h2 z
    exact ⟨s', w, p, g⟩
  · rw [loop_iff Good step hs, hr]
    constructor
    · rintro ⟨rfl, h2, rfl⟩ n
      exact ⟨rfl, h2 n, rfl⟩
    · intro h
      exact ⟨funext fun n => (h n).1, fun n => (h n).2.1, funext fun n => (h n).2.2⟩

section ieee
variable {f : Fmt} {L : Libm f} {L32 : Libm binary32} {b : Build}

/-- **C92**. A `LinearDelay` with delay at least 2 in a loop, in IEEE arithmetic on lines of at most 2^24 slots, in any reachable
state: the loop runs forever, and its streams are exactly, bit for bit, those in which the line without calls of `next_out`
answers the combined samples `u` with the announced samples `v`. -/
theorem C92_linearDelay_ieee [Target] {s : LinearDelay (Fl L32) (Fl L)} (hs : LinearDelay.ReachableVia b (fun n => n ≤ 2 ^ 24) s)
    (hd : 2 ≤ s.getDelay.toReal) (c : Fl L → Fl L → Fl L) (x : ℕ → Fl L) :
    (∃ u v r, FeedbackLoop b (LinearDelay.nextOut b) c s x u v r) ∧
    ∀ u v r, FeedbackLoop b (LinearDelay.nextOut b) c s x u v r ↔
      Responds b s u v ∧ (∀ n, u n = c (x n) (v n)) ∧ r = v := by
  obtain ⟨hi, hl, e, he, hfar, -⟩ := hs.finv
  have h2 := hfar hd
  let Good := fun t : LinearDelay (Fl L32) (Fl L) => t.WInv ∧ t.Eff e
  have step : ∀ t, Good t → ∃ mid w, t.nextOut b = .ok (mid, w) ∧ ∀ z, ∃ s', Processor.process b mid z = .ok (s', w) ∧
      Processor.process b t z = .ok (s', w) ∧ Good s' := by
    rintro t ⟨ht, hte⟩
    have hr := hte.lt ht.hw
    have hlen := ht.len_le
    have hmod := isizeMax_lt
    obtain ⟨mid, w, h1⟩ : ∃ mid w, t.nextOut b = .ok (mid, w) := by
      cases hdn : t.do_next_out
      · exact ⟨t, t.next_out, by unfold LinearDelay.nextOut; rw [if_neg (by simp [hdn])]⟩
      · obtain ⟨m0, m1, -, -, hn⟩ := LinearDelay.nextOut_eq (b := b) hr hdn (by omega)
        exact ⟨_, _, hn⟩
    refine ⟨mid, w, h1, fun z => ?_⟩
    have ho := LinearDelay.observe_far ht hte h2 h1 z
    obtain rfl := LinearDelay.nextOut_frame h1
    obtain ⟨s', hp, hnx⟩ := LinearDelay.process_cached (b := b) (s := { t with next_out := w, do_next_out := false })
      ⟨ht.hw, ht.cap⟩ hr rfl z
    rw [hp] at ho
    exact ⟨s', hp, ho.symm, hnx.winv, hnx.eff e hte⟩
  refine ⟨loop_exists Good (fun t ht => ?_) ⟨hi, he⟩ c x, fun u v r => loop_iff Good step ⟨hi, he⟩ c x u v r⟩
  obtain ⟨mid, w, h1, h2⟩ := step t ht
  refine ⟨mid, w, h1, fun z => ?_⟩
  obtain ⟨s', p, -, g⟩ := h2 z
  exact ⟨s', w, p, g⟩

end ieee

/-! ## Comb and all-pass loops in exact arithmetic -/

section comb
variable {b : Build} {d m : ℕ}

/-- Feedback comb filter. -/
theorem comb_bounded {g B : ℝ} (hg : |g| < 1) (hd : 1 ≤ d) {x u : ℕ → ℝ} (h : ∀ n, u n = x n + g * lag u d n)
    (hx : ∀ n, |x n| ≤ B) (n : ℕ) : |u n| ≤ B / (1 - |g|) := by
  have hB : 0 ≤ B := (abs_nonneg _).trans (hx 0)
  have hq : 0 < 1 - |g| := by linarith
  have hC : 0 ≤ B / (1 - |g|) := by positivity
  have hfix : B + |g| * (B / (1 - |g|)) = B / (1 - |g|) := by field_simp; ring
  induction n using Nat.strong_induction_on with
  | _ n ih =>
    have hl : |lag u d n| ≤ B / (1 - |g|) := by
      unfold lag
      split_ifs with hc
      · exact ih _ (by omega)
      · simpa using hC
    rw [h n]
    calc |x n + g * lag u d n| ≤ |x n| + |g * lag u d n| := abs_add_le _ _
      _ = |x n| + |g| * |lag u d n| := by rw [abs_mul]
      _ ≤ B + |g| * (B / (1 - |g|)) := add_le_add (hx n) (mul_le_mul_of_nonneg_left hl (abs_nonneg g))
      _ = _ := hfix

theorem comb_impulse {g : ℝ} (hd : 1 ≤ d) {u : ℕ → ℝ} (h : ∀ n, u n = unitImpulse n + g * lag u d n) (n : ℕ) :
    u n = if d ∣ n then g ^ (n / d) else 0 := by
  induction n using Nat.strong_induction_on with
  | _ n ih =>
    rw [h n]
    unfold lag unitImpulse
    by_cases h0 : n = 0
    · subst h0
      rw [if_neg (show ¬ d ≤ 0 by omega)]
      simp
    · rw [if_neg h0]
      by_cases hc : d ≤ n
      · rw [if_pos hc, ih _ (by omega)]
        have e1 : d ∣ n - d ↔ d ∣ n := (Nat.dvd_sub_iff_left hc (dvd_refl d))
        by_cases hdv : d ∣ n
        · rw [if_pos (e1.2 hdv), if_pos hdv, ← pow_succ', zero_add]
          congr 1
          obtain ⟨k, rfl⟩ := hdv
          obtain ⟨j, rfl⟩ : ∃ j, k = j + 1 := ⟨k - 1, by rcases k with - | k <;> simp_all⟩
          rw [Nat.mul_div_cancel_left _ (by omega), Nat.mul_succ, Nat.add_sub_cancel, Nat.mul_div_cancel_left _ (by omega)]
        · rw [if_neg (mt e1.1 hdv), if_neg hdv]; simp
      · rw [if_neg hc, if_neg (fun hdv => hc (Nat.le_of_dvd (by omega) hdv))]
        simp

/-- Energies in the loop. -/
theorem allpass_energy {g : ℝ} {x u v : ℕ → ℝ} (hv : ∀ n, v n = lag u d n) (hu : ∀ n, u n = x n + g * v n) (N : ℕ) :
    ∑ n ∈ Finset.range N, x n ^ 2 - ∑ n ∈ Finset.range N, (v n - g * u n) ^ 2 =
      (1 - g ^ 2) * ∑ n ∈ Finset.Ico (N - d) N, u n ^ 2 := by
  have hx : ∀ n, x n = u n - g * v n := fun n => by rw [hu n]; ring
  have h1 : ∑ n ∈ Finset.range N, x n ^ 2 - ∑ n ∈ Finset.range N, (v n - g * u n) ^ 2 =
      (1 - g ^ 2) * (∑ n ∈ Finset.range N, u n ^ 2 - ∑ n ∈ Finset.range N, v n ^ 2) := by
    rw [← Finset.sum_sub_distrib, ← Finset.sum_sub_distrib, Finset.mul_sum]
    exact Finset.sum_congr rfl fun n _ => by rw [hx n]; ring
  have h2 : ∑ n ∈ Finset.range N, v n ^ 2 = ∑ n ∈ Finset.range (N - d), u n ^ 2 := by
    clear h1
    induction N with
    | zero => simp
    | succ N ih =>
      rw [Finset.sum_range_succ, ih, hv N]
      unfold lag
      split_ifs with hc
      · rw [show N + 1 - d = (N - d) + 1 by omega, Finset.sum_range_succ]
      · rw [show N + 1 - d = N - d by omega]; simp
  rw [h1, h2, Finset.sum_Ico_eq_sub _ (by omega)]

theorem allpass_total {g : ℝ} (hg : |g| < 1) {x u v : ℕ → ℝ} (hv : ∀ n, v n = lag u d n) (hu : ∀ n, u n = x n + g * v n)
    (hx : Summable fun n => x n ^ 2) : HasSum (fun n => (v n - g * u n) ^ 2) (∑' n, x n ^ 2) := by
  have hq : 0 < 1 - g ^ 2 := by have := sq_lt_one_iff_abs_lt_one g |>.2 hg; linarith
  have hsum : Summable fun n => (v n - g * u n) ^ 2 := by
    refine summable_of_sum_range_le (c := ∑' n, x n ^ 2) (fun n => sq_nonneg _) fun N => ?_
    have h1 := allpass_energy hv hu N
    have h2 : 0 ≤ (1 - g ^ 2) * ∑ n ∈ Finset.Ico (N - d) N, u n ^ 2 :=
      mul_nonneg hq.le (Finset.sum_nonneg fun n _ => sq_nonneg _)
    have h3 := hx.sum_le_tsum (Finset.range N) (fun n _ => sq_nonneg (x n))
    linarith
  have hx0 : Filter.Tendsto x Filter.atTop (nhds 0) := by
    have := hx.tendsto_atTop_zero.sqrt
    simp only [Real.sqrt_sq_eq_abs, Real.sqrt_zero] at this
    exact (tendsto_zero_iff_abs_tendsto_zero _).2 this
  have hy0 : Filter.Tendsto (fun n => v n - g * u n) Filter.atTop (nhds 0) := by
    have := hsum.tendsto_atTop_zero.sqrt
    simp only [Real.sqrt_sq_eq_abs, Real.sqrt_zero] at this
    exact (tendsto_zero_iff_abs_tendsto_zero _).2 this
  have hu0 : Filter.Tendsto u Filter.atTop (nhds 0) := by
    have h := (hx0.add (hy0.const_mul g)).div_const (1 - g ^ 2)
    simp only [mul_zero, add_zero, zero_div] at h
    refine h.congr fun n => ?_
    rw [div_eq_iff hq.ne', hu n]
    ring
  have hE : Filter.Tendsto (fun N => (1 - g ^ 2) * ∑ n ∈ Finset.Ico (N - d) N, u n ^ 2) Filter.atTop (nhds 0) := by
    have hk : ∀ k, Filter.Tendsto (fun N => u (N - (k + 1)) ^ 2) Filter.atTop (nhds 0) := fun k => by
      have := (hu0.comp (Filter.tendsto_sub_atTop_nat (k + 1))).pow 2
      simpa using this
    have h := (tendsto_finsetSum (Finset.range d) fun k _ => hk k).const_mul (1 - g ^ 2)
    simp only [Finset.sum_const_zero, mul_zero] at h
    refine h.congr' (Filter.eventually_atTop.2 ⟨d, fun N hN => ?_⟩)
    congr 1
    rw [Finset.sum_Ico_eq_sum_range, show N - (N - d) = d by omega, ← Finset.sum_range_reflect]
    refine Finset.sum_congr rfl fun k hk => ?_
    rw [Finset.mem_range] at hk
    congr 2
    omega
  have h1 := hx.hasSum.tendsto_sum_nat
  have h2 := h1.sub hE
  rw [sub_zero] at h2
  refine (hsum.hasSum_iff_tendsto_nat).2 (h2.congr fun N => ?_)
  have := allpass_energy hv hu N
  linarith

/-- **C92**. The loop `x + g v` around a new `Delay` is a comb filter: its answer to an impulse is `g^k` at the multiples `k d` of
the delay and silence in between, and with `|g| < 1` inputs of magnitude at most `B` never leave `B / (1 - |g|)`. -/
theorem C92_comb [Target] (hm : Allocatable ℝ m) (hd : 1 ≤ d) (hdm : d ≤ m) (g : ℝ) :
    ∃ s : Delay ℝ, Delay.new b d m = .ok s ∧
      (∀ u v r, FeedbackLoop b Delay.announce (fun x v => x + g * v) s unitImpulse u v r →
        ∀ n, u n = if d ∣ n then g ^ (n / d) else 0) ∧
      (|g| < 1 → ∀ x u v r B, FeedbackLoop b Delay.announce (fun x v => x + g * v) s x u v r → (∀ n, |x n| ≤ B) →
        ∀ n, |u n| ≤ B / (1 - |g|)) := by
  obtain ⟨s, hn, -⟩ := C92_delay (b := b) (d := d) hm (fun x v => x + g * v) unitImpulse
  have key : ∀ x u v r, FeedbackLoop b Delay.announce (fun x v => x + g * v) s x u v r → ∀ n, u n = x n + g * lag u d n := by
    intro x u v r h n
    obtain ⟨s', hn', -, hi⟩ := C92_delay (b := b) (d := d) hm (fun x v => x + g * v) x
    rw [hn] at hn'
    cases hn'
    have := (hi u v r).1 h n
    rw [min_eq_left hdm, if_neg (by omega)] at this
    rw [this.2.1, this.1]
  exact ⟨s, hn, fun u v r h => comb_impulse hd (key _ _ _ _ h), fun hg x u v r B h hx => comb_bounded hg hd (key _ _ _ _ h) hx⟩

/-- **C92**. Schroeder's all-pass: with `y = v - g u` taken from the same loop, after any number `N` of samples the input energy
exceeds the output energy by `1 - g²` times the energy stored in the line, and for `|g| < 1` every input of finite energy
gives an output of the same energy. -/
theorem C92_allpass [Target] (hm : Allocatable ℝ m) (hd : 1 ≤ d) (hdm : d ≤ m) (g : ℝ) :
    ∃ s : Delay ℝ, Delay.new b d m = .ok s ∧
      ∀ x u v r, FeedbackLoop b Delay.announce (fun x v => x + g * v) s x u v r →
        (∀ N, ∑ n ∈ Finset.range N, x n ^ 2 - ∑ n ∈ Finset.range N, (v n - g * u n) ^ 2 =
          (1 - g ^ 2) * ∑ n ∈ Finset.Ico (N - d) N, u n ^ 2) ∧
        (|g| < 1 → (Summable fun n => x n ^ 2) → HasSum (fun n => (v n - g * u n) ^ 2) (∑' n, x n ^ 2)) := by
  obtain ⟨s, hn, -⟩ := C92_delay (b := b) (d := d) hm (fun x v => x + g * v) unitImpulse
  refine ⟨s, hn, fun x u v r h => ?_⟩
  obtain ⟨s', hn', -, hi⟩ := C92_delay (b := b) (d := d) hm (fun x v => x + g * v) x
  rw [hn] at hn'
  cases hn'
  have key := (hi u v r).1 h
  rw [min_eq_left hdm, if_neg (by omega)] at key
  exact ⟨allpass_energy (fun n => (key n).1) fun n => (key n).2.1,
    fun hg => allpass_total hg (fun n => (key n).1) fun n => (key n).2.1⟩

/-- The hypotheses are met by a comb of 100 samples with half the level at every repetition; its loop does run. -/
example [Target] : Allocatable ℝ 1000 ∧ |(1 / 2 : ℝ)| < 1 ∧ ∃ (s : Delay ℝ) (u v r : ℕ → ℝ), Delay.new ⟨true⟩ 100 1000 = .ok s ∧
    FeedbackLoop ⟨true⟩ Delay.announce (fun x v => x + 1 / 2 * v) s unitImpulse u v r ∧ u 200 = 1 / 4 := by
  have hm : Allocatable ℝ 1000 := by show (1000 + 1) * 8 ≤ isizeMax; have := target; omega
  refine ⟨hm, by norm_num [abs_of_pos], ?_⟩
  obtain ⟨s, hn, ⟨u, v, r, h⟩, -⟩ := C92_delay (b := ⟨true⟩) (d := 100) hm (fun x v => x + 1 / 2 * v) unitImpulse
  obtain ⟨s', hn', hi, -⟩ := C92_comb (b := ⟨true⟩) (d := 100) hm (by norm_num) (by norm_num) (1 / 2)
  rw [hn] at hn'
  cases hn'
  refine ⟨s, u, v, r, hn, h, ?_⟩
  rw [hi u v r h 200, if_pos (by decide)]
  norm_num

end comb

end Rasp
