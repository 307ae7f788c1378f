import Verif.Lemmas.LinearStep
import Verif.Props.Taps
import Mathlib.Algebra.Order.Floor.Semiring
import Mathlib.Tactic.Linarith

/-!
# C20, C25–C28: `LinearDelay`, cache (any arithmetic) and interpolation (exact arithmetic)
-/

namespace Rasp
open FloatOps

/-! ## C26: the cache -/

section cache
variable {D T : Type} [FloatOps D] [FloatOps T] [DelayTime D T] {b : Build}

omit [FloatOps D] [DelayTime D T] in
/-- **C26.** If `next_out` returned `v`, it returns `v` again (without changing the state), and a directly following
`process` returns `v` whatever its sample is. -/
theorem C26_nextOut_announces [Target] {s s' : LinearDelay D T} {v : T} (h : s.nextOut b = .ok (s', v)) :
    s'.nextOut b = .ok (s', v) ∧ ∀ x s'' y, s'.process b x = .ok (s'', y) → y = v := by
  obtain rfl := LinearDelay.nextOut_frame h
  refine ⟨by unfold LinearDelay.nextOut; rw [if_neg (by simp)], fun x s'' y hp => ?_⟩
  unfold LinearDelay.process at hp
  simp only [Res.bind_ok] at hp
  obtain ⟨_, -, _, -, _, -, ⟨s1, o⟩, h1, _, -, _, -, hp⟩ := hp
  cases hp
  unfold LinearDelay.nextOut at h1
  rw [if_neg (by simp)] at h1
  cases h1
  rfl

/-- **C26**, and that `process` call does return when the positions are valid. -/
theorem C26_process_after_nextOut [Target] {s s' : LinearDelay D T} {v : T} (hs : LinearDelay.Reachable b s)
    (hr : s.read_ptr < s.memory.length) (h : s.nextOut b = .ok (s', v)) (x : T) :
    ∃ s'', s'.process b x = .ok (s'', v) := by
  have hi := hs.winv
  obtain rfl := LinearDelay.nextOut_frame h
  obtain ⟨s2, h2, -⟩ := LinearDelay.process_cached (b := b) (s := { s with next_out := v, do_next_out := false })
    ⟨hi.hw, hi.cap⟩ hr rfl x
  exact ⟨s2, h2⟩

/-- **C28**, the refutation in general: a value announced by `next_out` survives `clear` and `set_delay` and is what
the next `process` returns. -/
theorem C28_pending_value_survives [Target] {s s1 : LinearDelay D T} {v : T} (h : s.nextOut b = .ok (s1, v)) :
    (∀ x s2 y, s1.clear.process b x = .ok (s2, y) → y = v) ∧
    (∀ d s3 x s4 y, s1.setDelay b d = .ok s3 → s3.process b x = .ok (s4, y) → y = v) := by
  obtain rfl := LinearDelay.nextOut_frame h
  have key : ∀ (t t2 : LinearDelay D T) (x y : T), t.do_next_out = false → t.next_out = v →
      t.process b x = .ok (t2, y) → y = v := by
    intro t t2 x y hd hv hp
    unfold LinearDelay.process at hp
    simp only [Res.bind_ok] at hp
    obtain ⟨_, -, _, -, _, -, ⟨s1, o⟩, h1, _, -, _, -, hp⟩ := hp
    cases hp
    unfold LinearDelay.nextOut at h1
    rw [if_neg (by simp [hd])] at h1
    cases h1
    exact hv
  refine ⟨fun x s2 y hp => key _ _ x y rfl rfl hp, fun d s3 x s4 y h3 hp => ?_⟩
  obtain ⟨-, -, -, hd, hv⟩ := LinearDelay.setDelay_frame h3
  exact key _ _ x y hd hv hp

omit [FloatOps D] [DelayTime D T] in
theorem LinearDelay.WInv.stores [Target] {s : LinearDelay D T} (h : s.WInv) : LinearDelay.Stores b s s.hist := by
  have hw := h.hw
  refine ⟨⟨s.memory.length - 1, uSub_ok (by omega), by simp; omega⟩, fun k hk => ?_⟩
  obtain ⟨y, h1, h2⟩ := LinearDelay.tapOut_spec (b := b) h (k := k) (by simpa using hk)
  rw [List.getElem?_eq_getElem hk, Option.some.injEq] at h2
  rw [h1, h2]

omit [FloatOps D] [FloatOps T] [DelayTime D T] in
theorem LinearDelay.Stores.eq [Target] {s : LinearDelay D T} {h h' : List T} (h1 : LinearDelay.Stores b s h)
    (h2 : LinearDelay.Stores b s h') : h = h' := by
  obtain ⟨⟨m, hm, hl⟩, ht⟩ := h1
  obtain ⟨⟨m', hm', hl'⟩, ht'⟩ := h2
  rw [hm] at hm'
  cases hm'
  refine List.ext_getElem (by omega) fun k hk hk' => ?_
  have := (ht k hk).symm.trans (ht' k hk')
  simpa using this

end cache

/-! ## Exact arithmetic -/

variable {b : Build}

theorem clipDelay_real (d m : ℝ) (hm : 0 ≤ m) : clipDelay d m = max 0 (min d m) := by
  unfold clipDelay
  by_cases h : m < d
  · simp only [real_lt, h, if_true, real_zero]
    rw [if_neg (by linarith), min_eq_right h.le, max_eq_right hm]
  · simp only [real_lt, h, if_false, real_zero]
    rw [min_eq_left (not_lt.mp h)]
    split
    · next h2 => rw [max_eq_left h2.le]
    · next h2 => rw [max_eq_right (not_lt.mp h2)]

/-- Read position and weights belong to the delay time. -/
structure LinearDelay.Tuned (s : LinearDelay ℝ ℝ) : Prop where
  nonneg : 0 ≤ s.delay
  eff : s.Eff ⌈s.delay⌉₊
  alpha : s.alpha = ⌈s.delay⌉₊ - s.delay
  om_alpha : s.om_alpha = 1 - s.alpha

theorem LinearDelay.setDelay_real [Target] {s : LinearDelay ℝ ℝ} (hi : s.WInv) (d : ℝ) :
    ∃ s', s.setDelay b d = .ok s' ∧ s'.Tuned ∧ s'.delay = max 0 (min d (s.memory.length - 1 : ℕ)) := by
  have hw := hi.hw
  have hlen := hi.len_le
  have ht := target
  have hl1 : 1 ≤ s.memory.length := by omega
  set D : ℝ := max 0 (min d (s.memory.length - 1 : ℕ)) with hD
  have hclip : clipDelay d (ofUsize (s.memory.length - 1) : ℝ) = D := clipDelay_real _ _ (by simp)
  have hD0 : 0 ≤ D := le_max_left _ _
  have hD1 : D ≤ (s.memory.length - 1 : ℕ) := max_le (by simp) (min_le_right _ _)
  set e := ⌈D⌉₊ with he
  have he1 : D ≤ e := Nat.le_ceil D
  have he2 : (e : ℝ) < D + 1 := Nat.ceil_lt_add_one hD0
  have he3 : e ≤ s.memory.length - 1 := Nat.ceil_le.mpr hD1
  by_cases hc : e ≤ s.write_ptr
  · have hDw : D ≤ s.write_ptr := he1.trans (by exact_mod_cast hc)
    have hpos := whileLoop_zero (cond := fun x : ℝ => lt x zero) (body := fun x => x +. ofUsize s.memory.length)
      (x := ofUsize s.write_ptr -. clipDelay d (ofUsize (s.memory.length - 1)))
      (by rw [hclip]; simp [FloatOps.lt]; linarith)
    have hfl : ⌊(s.write_ptr : ℝ) - D⌋ = ((s.write_ptr - e : ℕ) : ℤ) := by
      rw [Int.floor_eq_iff]
      push_cast [Nat.cast_sub hc]
      constructor <;> linarith
    have hr : DelayTime.toUsize ℝ ((s.write_ptr : ℝ) - D) = s.write_ptr - e := by
      show min ⌊(s.write_ptr : ℝ) - D⌋.toNat (usizeMod - 1) = _
      rw [hfl, Int.toNat_natCast]; omega
    have hsd := LinearDelay.setDelay_eq (b := b) (T := ℝ) (s := s) hl1 hpos
    rw [hclip] at hsd
    simp only [real_ofUsize, real_sub, hr, if_neg (show ¬ s.write_ptr - e = s.memory.length by omega)] at hsd
    refine ⟨_, hsd, ⟨hD0, ⟨by show e < s.memory.length; omega, ?_⟩, ?_, rfl⟩, rfl⟩
    · show s.write_ptr - e = if e ≤ s.write_ptr then _ else _
      rw [if_pos hc]
    · show (s.write_ptr : ℝ) - D - ((s.write_ptr - e : ℕ) : ℝ) = e - D
      push_cast [Nat.cast_sub hc]; ring
  · push Not at hc
    have hDw : (s.write_ptr : ℝ) < D := by
      have : s.write_ptr + 1 ≤ e := hc
      have : (s.write_ptr : ℝ) + 1 ≤ e := by exact_mod_cast this
      linarith
    have hDl : D ≤ s.memory.length - 1 := by
      rw [Nat.cast_sub hl1] at hD1; simpa using hD1
    have hpos := whileLoop_one (cond := fun x : ℝ => lt x zero) (body := fun x => x +. ofUsize s.memory.length)
      (x := ofUsize s.write_ptr -. clipDelay d (ofUsize (s.memory.length - 1)))
      (by rw [hclip]; simp [FloatOps.lt]; linarith)
      (by
        rw [hclip]; simp [FloatOps.lt]
        have : (0 : ℝ) ≤ s.write_ptr := by positivity
        linarith)
    have hfl : ⌊(s.write_ptr : ℝ) - D + s.memory.length⌋ = ((s.memory.length + s.write_ptr - e : ℕ) : ℤ) := by
      rw [Int.floor_eq_iff]
      push_cast [Nat.cast_sub (show e ≤ s.memory.length + s.write_ptr by omega)]
      constructor <;> linarith
    have hr : DelayTime.toUsize ℝ ((s.write_ptr : ℝ) - D + s.memory.length) = s.memory.length + s.write_ptr - e := by
      show min ⌊(s.write_ptr : ℝ) - D + s.memory.length⌋.toNat (usizeMod - 1) = _
      rw [hfl, Int.toNat_natCast]; omega
    have hsd := LinearDelay.setDelay_eq (b := b) (T := ℝ) (s := s) hl1 hpos
    rw [hclip] at hsd
    simp only [real_ofUsize, real_sub, real_add, hr,
      if_neg (show ¬ s.memory.length + s.write_ptr - e = s.memory.length by omega)] at hsd
    refine ⟨_, hsd, ⟨hD0, ⟨by show e < s.memory.length; omega, ?_⟩, ?_, rfl⟩, rfl⟩
    · show s.memory.length + s.write_ptr - e = if e ≤ s.write_ptr then _ else _
      rw [if_neg (by omega)]
    · show (s.write_ptr : ℝ) - D + s.memory.length - ((s.memory.length + s.write_ptr - e : ℕ) : ℝ) = e - D
      push_cast [Nat.cast_sub (show e ≤ s.memory.length + s.write_ptr by omega)]; ring

/-- The interpolation as the code writes it, with `e = ⌈d⌉`. -/
theorem interp_eq {d : ℝ} (hd : 0 ≤ d) (h : List ℝ) (x : ℕ → ℝ) (t n : ℕ) :
    delayedBy ⌈d⌉₊ h x t * (1 - (⌈d⌉₊ - d)) + delayedBy (older n ⌈d⌉₊) h x t * (⌈d⌉₊ - d) = interp d h x t := by
  unfold interp
  have h1 := Nat.floor_le hd
  have h2 := Nat.lt_floor_add_one d
  rcases h1.lt_or_eq with hlt | heq
  · have hc : ⌈d⌉₊ = ⌊d⌋₊ + 1 := by
      rw [Nat.ceil_eq_iff (by omega)]
      refine ⟨by simpa using hlt, ?_⟩
      push_cast; exact h2.le
    rw [hc]
    unfold older
    rw [if_neg (by omega), Nat.add_sub_cancel]
    push_cast; ring
  · have hc : (⌈d⌉₊ : ℝ) = d := by
      rw [← heq, Nat.ceil_natCast]
    have hc2 : ⌈d⌉₊ = ⌊d⌋₊ := by
      have : (⌈d⌉₊ : ℝ) = ⌊d⌋₊ := by rw [hc, heq]
      exact_mod_cast this
    rw [hc, hc2, heq]; ring

theorem LinearDelay.Tuned.responds [Target] {s : LinearDelay ℝ ℝ} (ht : s.Tuned) (hi : s.WInv) (hd : s.do_next_out = true)
    (x : ℕ → ℝ) : Responds b s x (interp s.delay s.hist x) := by
  have := LinearDelay.responds (b := b) hi ht.eff hd x
  convert this using 1
  funext t
  simp only [real_add, real_mul]
  rw [ht.om_alpha, ht.alpha, interp_eq ht.nonneg]

theorem delayedBy_replicate {T : Type} [FloatOps T] (e n : ℕ) (x : ℕ → T) :
    delayedBy e (List.replicate n zero) x = fun t => past x (t + 1) e := by
  funext t
  unfold delayedBy past
  by_cases h : e ≤ t
  · rw [if_pos h, if_pos (by omega)]; rfl
  · rw [if_neg h, if_neg (by omega), List.getD_eq_getElem?_getD, List.getElem?_replicate]; split <;> rfl

theorem interp_replicate (d : ℝ) (n : ℕ) (x : ℕ → ℝ) : interp d (List.replicate n 0) x = interp d [] x := by
  funext t
  have h1 := fun e => delayedBy_replicate e n x
  have h2 := fun e => delayedBy_replicate e 0 x
  simp only [real_zero, List.replicate_zero] at h1 h2
  unfold interp
  rw [h1, h1, h2, h2]

/-- **C20.** In exact arithmetic a new `LinearDelay` of delay `d` (clipped to `[0, m]`) interpolates linearly between
the samples `⌊d⌋` and `⌊d⌋ + 1` steps ago, with silence before the start. -/
theorem C20_new_interpolates [Target] {m : ℕ} (hm : Allocatable ℝ m) (d : ℝ) :
    ∃ s : LinearDelay ℝ ℝ, LinearDelay.new b d m = .ok s ∧ s.getDelay = max 0 (min d m) ∧
      ∀ x y, Responds b s x y ↔ y = interp (max 0 (min d m)) [] x := by
  have hm' := hm
  unfold Allocatable at hm'
  have hlen : m + 1 ≤ isizeMax := le_isizeMax_of_mul (size_pos (T := ℝ)) hm'
  obtain ⟨s, hs, ht, hd⟩ := LinearDelay.setDelay_real (b := b)
    (s := { memory := List.replicate (m + 1) 0, output := 0, read_ptr := 0, write_ptr := 0, delay := 0,
            do_next_out := true, next_out := 0, alpha := 0, om_alpha := 0 })
    ⟨by simp, by simpa using hm'⟩ (clipDelay d (ofUsize m))
  have hnew : LinearDelay.new b d m = .ok s := by
    unfold LinearDelay.new
    rw [uAdd_ok (by have := isizeMax_lt; omega), Res.ok_bind]
    unfold vecNew
    rw [if_pos hm', Res.ok_bind]
    exact hs
  obtain ⟨hmem, hw, hi, hdn, -⟩ := LinearDelay.new_frame hm hnew
  have hd' : s.delay = max 0 (min d m) := by
    rw [hd, real_ofUsize, clipDelay_real _ _ (by positivity)]
    simp only [List.length_replicate, Nat.add_sub_cancel]
    have : max 0 (min d (m : ℝ)) ≤ m := max_le (by positivity) (min_le_right _ _)
    rw [min_eq_left this, max_eq_right (le_max_left _ _)]
  refine ⟨s, hnew, hd', fun x y => ?_⟩
  have hr := ht.responds (b := b) hi hdn x
  have hh : s.hist = List.replicate (m + 1) 0 := by
    unfold LinearDelay.hist; rw [hmem, histOf_replicate]; rfl
  rw [hh, interp_replicate, hd'] at hr
  exact ⟨fun h => h.unique hr, fun h => h ▸ hr⟩

/-- **C20**, after `set_delay` in any reachable state without pending `next_out`: the stream continues by interpolating
the stored samples at the new distance. -/
theorem C20_setDelay_interpolates [Target] {s : LinearDelay ℝ ℝ} (hs : LinearDelay.Reachable b s) (hd : s.do_next_out = true)
    {h : List ℝ} (hst : s.Stores b h) (d : ℝ) :
    ∃ s', s.setDelay b d = .ok s' ∧ s'.getDelay = max 0 (min d (h.length - 1 : ℕ)) ∧
      (∀ k, s'.tapOut b k = s.tapOut b k) ∧ s'.lastOut = s.lastOut ∧
      ∀ x y, Responds b s' x y ↔ y = interp (max 0 (min d (h.length - 1 : ℕ))) h x := by
  have hi := hs.winv
  obtain rfl := hst.eq hi.stores
  obtain ⟨s', h1, ht, hdl⟩ := LinearDelay.setDelay_real (b := b) hi d
  obtain ⟨hmem, hw, ho, hdn, -⟩ := LinearDelay.setDelay_frame h1
  have hh : s'.hist = s.hist := by unfold LinearDelay.hist; rw [hmem, hw]
  rw [LinearDelay.hist_length]
  refine ⟨s', h1, hdl, fun k => by unfold LinearDelay.tapOut; rw [hmem, hw], ho, fun x y => ?_⟩
  have hr := ht.responds (b := b) ⟨by rw [hmem, hw]; exact hi.hw, by rw [hmem]; exact hi.cap⟩ (hdn.trans hd) x
  rw [hh, hdl] at hr
  exact ⟨fun h => h.unique hr, fun h => h ▸ hr⟩

/-- Non-vacuity: `interp` at 1.5 on the stream 2, 4, 8, … : 0, 1, 3, 6. -/
example : interp 1.5 [] (fun n => 2 ^ (n + 1)) 3 = 6 := by
  have h : ⌊(1.5 : ℝ)⌋₊ = 1 := by rw [Nat.floor_eq_iff (by norm_num)]; norm_num
  unfold interp delayedBy
  rw [h]; norm_num

/-- An interpolated value lies between its two neighbours. -/
theorem interp_between {d : ℝ} (hd : 0 ≤ d) (h : List ℝ) (x : ℕ → ℝ) (t : ℕ) :
    min (delayedBy ⌊d⌋₊ h x t) (delayedBy (⌊d⌋₊ + 1) h x t) ≤ interp d h x t ∧
      interp d h x t ≤ max (delayedBy ⌊d⌋₊ h x t) (delayedBy (⌊d⌋₊ + 1) h x t) := by
  unfold interp
  have h1 := Nat.floor_le hd
  have h2 := Nat.lt_floor_add_one d
  generalize delayedBy ⌊d⌋₊ h x t = p
  generalize delayedBy (⌊d⌋₊ + 1) h x t = q
  set f := d - ⌊d⌋₊ with hf
  have hf0 : 0 ≤ f := by linarith
  have hf1 : f ≤ 1 := by linarith
  have a1 := min_le_left p q
  have a2 := min_le_right p q
  have a3 := le_max_left p q
  have a4 := le_max_right p q
  constructor
  · nlinarith
  · nlinarith

/-- **C25**, exact arithmetic: after `set_delay` in any reachable state (no pending announcement) every output lies between the
two neighbouring samples of the stream it interpolates. -/
theorem C25_output_between [Target] {s : LinearDelay ℝ ℝ} (hs : LinearDelay.Reachable b s) (hd : s.do_next_out = true)
    {h : List ℝ} (hst : s.Stores b h) (d : ℝ) (x : ℕ → ℝ) :
    ∃ s' y, s.setDelay b d = .ok s' ∧ Responds b s' x y ∧ ∀ t,
      min (delayedBy ⌊s'.getDelay⌋₊ h x t) (delayedBy (⌊s'.getDelay⌋₊ + 1) h x t) ≤ y t ∧
      y t ≤ max (delayedBy ⌊s'.getDelay⌋₊ h x t) (delayedBy (⌊s'.getDelay⌋₊ + 1) h x t) := by
  obtain ⟨s', h1, h2, -, -, h3⟩ := C20_setDelay_interpolates hs hd hst d
  refine ⟨s', _, h1, (h3 x _).mpr rfl, fun t => ?_⟩
  rw [h2]
  exact interp_between (le_max_left _ _) h x t

/-- C25, exact arithmetic, for a whole stream: a new line never exceeds the peak of its input. -/
theorem no_overshoot [Target] {m : ℕ} (hm : Allocatable ℝ m) (d : ℝ) {s : LinearDelay ℝ ℝ}
    (hnew : LinearDelay.new b d m = .ok s) {x y : ℕ → ℝ} (hr : Responds b s x y) {B : ℝ} (hB : ∀ n, |x n| ≤ B) (t : ℕ) :
    |y t| ≤ B := by
  obtain ⟨s', hn', -, hiff⟩ := C20_new_interpolates (b := b) hm d
  rw [hnew] at hn'
  cases hn'
  rw [(hiff x y).mp hr]
  have hz : ∀ e, |delayedBy e [] x t| ≤ B := by
    intro e
    unfold delayedBy
    split
    · exact hB _
    · simp; exact (abs_nonneg _).trans (hB 0)
  have h0 := interp_between (d := max 0 (min d m)) (le_max_left _ _) [] x t
  generalize max 0 (min d (m : ℝ)) = d' at h0 ⊢
  have h1 := abs_le.mp (hz ⌊d'⌋₊)
  have h2 := abs_le.mp (hz (⌊d'⌋₊ + 1))
  rw [abs_le]
  exact ⟨(le_min h1.1 h2.1).trans h0.1, h0.2.trans (max_le h1.2 h2.2)⟩

/-- **C25**, exact arithmetic, for a whole stream: a new line never exceeds the peak of its input. -/
theorem C25_no_overshoot [Target] {m : ℕ} (hm : Allocatable ℝ m) (d : ℝ) {x : ℕ → ℝ} {B : ℝ} (hB : ∀ n, |x n| ≤ B) :
    ∃ (s : LinearDelay ℝ ℝ) (y : ℕ → ℝ), LinearDelay.new b d m = .ok s ∧ Responds b s x y ∧ ∀ t, |y t| ≤ B := by
  obtain ⟨s, hn, -, hiff⟩ := C20_new_interpolates (b := b) hm d
  exact ⟨s, _, hn, (hiff x _).mpr rfl, no_overshoot hm d hn ((hiff x _).mpr rfl) hB⟩

/-! ## C27 -/

/-- Invariant of every reachable state in exact arithmetic, growth included. -/
structure LinearDelay.RInv [Target] (s : LinearDelay ℝ ℝ) : Prop where
  winv : s.WInv
  read : ∃ e, s.Eff e ∧ (1 ≤ s.delay → 2 ≤ e ∨ (e = 1 ∧ s.alpha = 0))
  weights : 0 ≤ s.alpha ∧ s.alpha < 1 ∧ s.om_alpha = 1 - s.alpha

theorem LinearDelay.Tuned.rinv [Target] {s : LinearDelay ℝ ℝ} (ht : s.Tuned) (hi : s.WInv) : s.RInv := by
  have h1 := Nat.le_ceil s.delay
  have h2 := Nat.ceil_lt_add_one ht.nonneg
  refine ⟨hi, ⟨_, ht.eff, fun hd => ?_⟩, ?_, ?_, ht.om_alpha⟩
  · have h3 : 1 ≤ ⌈s.delay⌉₊ := Nat.one_le_ceil_iff.mpr (by linarith)
    by_cases h4 : 2 ≤ ⌈s.delay⌉₊
    · exact .inl h4
    · have h5 : ⌈s.delay⌉₊ = 1 := by omega
      refine .inr ⟨h5, ?_⟩
      rw [h5] at h1
      rw [ht.alpha, h5]
      push_cast at *
      linarith
  · rw [ht.alpha]; linarith
  · rw [ht.alpha]; linarith

theorem LinearDelay.new_real [Target] {m : ℕ} (hm : Allocatable ℝ m) {d : ℝ} {s : LinearDelay ℝ ℝ}
    (h : LinearDelay.new b d m = .ok s) : s.Tuned := by
  have hm' := hm
  unfold Allocatable at hm'
  have hlen : m + 1 ≤ isizeMax := le_isizeMax_of_mul (size_pos (T := ℝ)) hm'
  unfold LinearDelay.new at h
  rw [uAdd_ok (by have := isizeMax_lt; omega), Res.ok_bind] at h
  unfold vecNew at h
  rw [if_pos hm', Res.ok_bind] at h
  obtain ⟨s', hs, ht, -⟩ := LinearDelay.setDelay_real (b := b)
    (s := { memory := List.replicate (m + 1) zero, output := zero, read_ptr := 0, write_ptr := 0, delay := zero,
            do_next_out := true, next_out := zero, alpha := zero, om_alpha := zero })
    ⟨by simp, by simpa using hm'⟩ (clipDelay d (ofUsize m))
  rw [hs] at h
  cases h
  exact ht

theorem LinearDelay.Reachable.rinv [Target] {s : LinearDelay ℝ ℝ} (h : LinearDelay.Reachable b s) : s.RInv := by
  induction h with
  | new hm h => exact (LinearDelay.new_real hm h).rinv (LinearDelay.new_frame hm h).2.2.1
  | step hs ho h ih =>
    rename_i s s' op o
    have hw' : s'.WInv := (LinearDelay.Reachable.step hs ho h).winv
    obtain ⟨hi, ⟨e, he, hde⟩, ha⟩ := ih
    cases op with
    | process x =>
      simp only [LinearDelay.step, Res.bind_ok] at h
      obtain ⟨⟨s1, y⟩, h1, h⟩ := h
      cases h
      have hnx : LinearDelay.Next s s1 x y := by
        cases hd : s.do_next_out
        · obtain ⟨s2, hp, hnx⟩ := LinearDelay.process_cached (b := b) hi (he.lt hi.hw) hd x
          rw [h1] at hp
          cases hp
          exact hnx
        · obtain ⟨s2, m0, m1, -, -, hp, hnx⟩ := LinearDelay.process_spec (b := b) hi he hd x
          rw [h1] at hp
          cases hp
          exact hnx
      refine ⟨hw', ⟨e, hnx.eff e he, ?_⟩, ?_⟩
      · simp only [hnx.delay, hnx.alpha]; exact hde
      · simp only [hnx.om_alpha, hnx.alpha]; exact ha
    | setDelay d =>
      simp only [LinearDelay.step, Res.bind_ok] at h
      obtain ⟨s1, h1, h⟩ := h
      cases h
      obtain ⟨s2, h2, ht, -⟩ := LinearDelay.setDelay_real (b := b) hi d
      rw [h1] at h2
      cases h2
      exact ht.rinv hw'
    | setMaxDelay m =>
      simp only [LinearDelay.step, Res.bind_ok] at h
      obtain ⟨s1, h1, h⟩ := h
      cases h
      by_cases hc : m < s.memory.length
      · rw [LinearDelay.setMaxDelay_small hc] at h1
        cases h1
        exact ⟨hi, ⟨e, he, hde⟩, ha⟩
      · rw [LinearDelay.setMaxDelay_grow (by omega) ho] at h1
        cases h1
        have e1 := he.1
        have e2 := he.2
        have hw := hi.hw
        refine ⟨hw', ⟨if e ≤ s.write_ptr then e else e + (m + 1 - s.memory.length), ⟨?_, ?_⟩, ?_⟩, ha⟩
        · simp only [List.length_append, List.length_replicate]; split <;> omega
        · simp only [List.length_append, List.length_replicate]
          rw [e2]; split
          · rfl
          · rw [if_neg (by omega)]; omega
        · intro hd
          have := hde hd
          split
          · exact this
          · left
            rcases this with h | ⟨h, -⟩ <;> omega
    | nextOut =>
      simp only [LinearDelay.step, Res.bind_ok] at h
      obtain ⟨⟨s1, y⟩, h1, h⟩ := h
      cases h
      obtain rfl := LinearDelay.nextOut_frame h1
      exact ⟨hw', ⟨e, he, hde⟩, ha⟩
    | tapOut k =>
      simp only [LinearDelay.step, Res.bind_ok] at h
      obtain ⟨_, _, h⟩ := h
      cases h
      exact ⟨hi, ⟨e, he, hde⟩, ha⟩
    | tapIn v k =>
      obtain ⟨m, h1, -, hl⟩ := LinearDelay.tapIn_spec (b := b) hi (k := k) ho v
      simp only [LinearDelay.step, h1, Res.ok_bind] at h
      cases h
      refine ⟨hw', ⟨e, ?_, hde⟩, ha⟩
      unfold LinearDelay.Eff
      simp only [hl]
      exact he
    | addTo v k =>
      obtain ⟨m, y, -, h1, -, hl⟩ := LinearDelay.addTo_spec (b := b) hi (k := k) ho v
      simp only [LinearDelay.step, h1, Res.ok_bind] at h
      cases h
      refine ⟨hw', ⟨e, ?_, hde⟩, ha⟩
      unfold LinearDelay.Eff
      simp only [hl]
      exact he
    | clear =>
      simp only [LinearDelay.step] at h
      cases h
      refine ⟨hw', ⟨e, ?_, hde⟩, ha⟩
      unfold LinearDelay.Eff LinearDelay.clear
      simp only [List.length_map]
      exact he

/-- **C25**, exact arithmetic: the weights are a convex combination in every reachable state. -/
theorem C25_weights_real [Target] {s : LinearDelay ℝ ℝ} (h : LinearDelay.Reachable b s) :
    0 ≤ s.alpha ∧ s.alpha ≤ 1 ∧ 0 ≤ s.om_alpha ∧ s.om_alpha ≤ 1 ∧ s.alpha + s.om_alpha = 1 := by
  obtain ⟨h1, h2, h3⟩ := h.rinv.weights
  rw [h3]
  exact ⟨h1, h2.le, by linarith, by linarith, by ring⟩

/-- **C20/C24** in exact arithmetic: no call with allowed arguments panics in a reachable state. -/
theorem C24_never_panics_real [Target] {s : LinearDelay ℝ ℝ} (hs : LinearDelay.Reachable b s) {op : LinOp ℝ ℝ}
    (ho : op.Legal s) : ∃ r, s.step b op = .ok r := by
  obtain ⟨hi, ⟨e, he, -⟩, -⟩ := hs.rinv
  have hr := he.lt hi.hw
  have hlen := hi.len_le
  have hmod := isizeMax_lt
  cases op with
  | process x =>
    cases hd : s.do_next_out
    · obtain ⟨s2, hp, -⟩ := LinearDelay.process_cached (b := b) hi hr hd x
      simp only [LinearDelay.step, hp, Res.ok_bind]; exact ⟨_, rfl⟩
    · obtain ⟨s2, m0, m1, -, -, hp, -⟩ := LinearDelay.process_spec (b := b) hi he hd x
      simp only [LinearDelay.step, hp, Res.ok_bind]; exact ⟨_, rfl⟩
  | setDelay d =>
    obtain ⟨s2, hp, -⟩ := LinearDelay.setDelay_real (b := b) hi d
    simp only [LinearDelay.step, hp, Res.ok_bind]; exact ⟨_, rfl⟩
  | setMaxDelay m =>
    by_cases hc : m < s.memory.length
    · simp only [LinearDelay.step, LinearDelay.setMaxDelay_small hc, Res.ok_bind]; exact ⟨_, rfl⟩
    · simp only [LinearDelay.step, LinearDelay.setMaxDelay_grow (Nat.le_of_not_lt hc) ho, Res.ok_bind]; exact ⟨_, rfl⟩
  | nextOut =>
    cases hd : s.do_next_out
    · have : s.nextOut b = .ok (s, s.next_out) := by unfold LinearDelay.nextOut; rw [if_neg (by simp [hd])]
      simp only [LinearDelay.step, this, Res.ok_bind]; exact ⟨_, rfl⟩
    · obtain ⟨m0, m1, -, -, hp⟩ := LinearDelay.nextOut_eq (b := b) hr hd (by omega)
      simp only [LinearDelay.step, hp, Res.ok_bind]; exact ⟨_, rfl⟩
  | tapOut k =>
    obtain ⟨y, hp, -⟩ := LinearDelay.tapOut_spec (b := b) hi (k := k) ho
    simp only [LinearDelay.step, hp, Res.ok_bind]; exact ⟨_, rfl⟩
  | tapIn v k =>
    obtain ⟨m, hp, -⟩ := LinearDelay.tapIn_spec (b := b) hi (k := k) ho v
    simp only [LinearDelay.step, hp, Res.ok_bind]; exact ⟨_, rfl⟩
  | addTo v k =>
    obtain ⟨m, y, -, hp, -⟩ := LinearDelay.addTo_spec (b := b) hi (k := k) ho v
    simp only [LinearDelay.step, hp, Res.ok_bind]; exact ⟨_, rfl⟩
  | clear => exact ⟨_, rfl⟩

/-- A line with delay at least 1: `process` after `next_out` is `process` (exact arithmetic). -/
theorem LinearDelay.observe_real [Target] {s s' : LinearDelay ℝ ℝ} {v : ℝ} (hs : LinearDelay.Reachable b s)
    (hd1 : 1 ≤ s.getDelay) (h : s.nextOut b = .ok (s', v)) (z : ℝ) : s.process b z = s'.process b z := by
  obtain ⟨hi, ⟨e, he, hde⟩, ha⟩ := hs.rinv
  have hr := he.lt hi.hw
  have hlen := hi.len_le
  have hmod := isizeMax_lt
  have hw := hi.hw
  cases hd : s.do_next_out
  · have : s.nextOut b = .ok (s, s.next_out) := by unfold LinearDelay.nextOut; rw [if_neg (by simp [hd])]
    rw [h] at this
    cases this
    rfl
  · have hfr := LinearDelay.nextOut_frame h
    obtain ⟨m0, m1, g0, g1, hn⟩ := LinearDelay.nextOut_eq (b := b) hr hd (by omega)
    rw [h] at hn
    cases hn
    simp only [real_add, real_mul] at *
    have hw' : (s.write_ptr + 1) % s.memory.length < s.memory.length := Nat.mod_lt _ (by omega)
    -- after the write
    obtain ⟨p0, p1, q0, q1, hq⟩ := LinearDelay.nextOut_eq (b := b) (s := s.pushed z)
      (by simpa [LinearDelay.pushed] using hr) hd (by simp [LinearDelay.pushed]; omega)
    simp only [LinearDelay.pushed, List.length_set, real_add, real_mul] at q0 q1 hq
    have e1 := he.1
    have e2 := he.2
    have hcase := hde hd1
    have hval : p0 * s.om_alpha + p1 * s.alpha = m0 * s.om_alpha + m1 * s.alpha := by
      have hne0 : s.write_ptr ≠ s.read_ptr := by
        split at e2 <;> rcases hcase with h | ⟨h, -⟩ <;> omega
      rw [List.getElem?_set_ne hne0, g0] at q0
      cases q0
      rcases hcase with h2 | ⟨h2, h3⟩
      · have hne1 : s.write_ptr ≠ (s.read_ptr + 1) % s.memory.length := by
          rw [succ_mod hr]
          split at e2 <;> split <;> omega
        rw [List.getElem?_set_ne hne1, g1] at q1
        cases q1
        rfl
      · rw [h3]; ring
    have hp := LinearDelay.process_eq (b := b) hi hr z ⟨_, hq⟩
    obtain ⟨t, hpc, -⟩ := LinearDelay.process_cached (b := b)
      (s := { s with next_out := m0 * s.om_alpha + m1 * s.alpha, do_next_out := false }) ⟨hi.hw, hi.cap⟩ hr rfl z
    have hn2 : LinearDelay.nextOut b (LinearDelay.pushed
        { s with next_out := m0 * s.om_alpha + m1 * s.alpha, do_next_out := false } z) =
        .ok (LinearDelay.pushed
        { s with next_out := m0 * s.om_alpha + m1 * s.alpha, do_next_out := false } z,
          m0 * s.om_alpha + m1 * s.alpha) := by
      unfold LinearDelay.nextOut
      rw [if_neg (by simp [LinearDelay.pushed])]
      rfl
    have hp2 := LinearDelay.process_eq (b := b)
      (s := { s with next_out := m0 * s.om_alpha + m1 * s.alpha, do_next_out := false }) ⟨hi.hw, hi.cap⟩ hr z ⟨_, hn2⟩
    rw [hp, hp2, hval]
    rfl

/-- **C27**, delay at least 1: calling `next_out` changes no later output (exact arithmetic). -/
theorem C27_nextOut_only_observes [Target] {s s' : LinearDelay ℝ ℝ} {v : ℝ} (hs : LinearDelay.Reachable b s)
    (hd1 : 1 ≤ s.getDelay) (h : s.nextOut b = .ok (s', v)) (x y : ℕ → ℝ) :
    Responds b s x y ↔ Responds b s' x y := by
  have key := LinearDelay.observe_real hs hd1 h
  constructor
  · rintro ⟨st, h0, hst⟩
    refine ⟨fun n => if n = 0 then _ else st n, if_pos rfl, fun n => ?_⟩
    cases n with
    | zero =>
      have h1 := hst 0
      rw [h0] at h1
      simp only [if_true]
      exact (key _).symm.trans h1
    | succ n => simpa using hst (n + 1)
  · rintro ⟨st, h0, hst⟩
    refine ⟨fun n => if n = 0 then s else st n, if_pos rfl, fun n => ?_⟩
    cases n with
    | zero =>
      have h1 := hst 0
      rw [h0] at h1
      simp only [if_true]
      exact (key _).trans h1
    | succ n => simpa using hst (n + 1)

/-- **C27** refuted for delays below 1: on a new line, `process x` returns `(1 - d) x`, but after `next_out` it returns
`0` for every `x`. -/
theorem C27_false_below_one [Target] {m : ℕ} (hm : Allocatable ℝ m) (hm1 : 1 ≤ m) {d : ℝ} (hd0 : 0 ≤ d) (hd1 : d < 1) (x : ℝ) :
    ∃ s s' s1 s2 : LinearDelay ℝ ℝ, LinearDelay.new b d m = .ok s ∧
      s.process b x = .ok (s1, (1 - d) * x) ∧ s.nextOut b = .ok (s', 0) ∧ s'.process b x = .ok (s2, 0) := by
  obtain ⟨s, hnew, hgd, hresp⟩ := C20_new_interpolates (b := b) hm d
  have hD : max 0 (min d (m : ℝ)) = d := by
    have : (1 : ℝ) ≤ m := by exact_mod_cast hm1
    rw [min_eq_left (by linarith), max_eq_right hd0]
  rw [hD] at hgd hresp
  have hi : s.WInv := (LinearDelay.Reachable.new hm hnew).winv
  obtain ⟨hmem, hw, -, hdn, -⟩ := LinearDelay.new_frame hm hnew
  have ht := LinearDelay.new_real hm hnew
  have hr := ht.eff.lt hi.hw
  have hlen := hi.len_le
  have hmod := isizeMax_lt
  obtain ⟨st, h0, hst⟩ := (hresp (fun _ => x) _).mpr rfl
  have h1 := hst 0
  rw [h0] at h1
  have hv : interp d [] (fun _ => x) 0 = (1 - d) * x := by
    have : ⌊d⌋₊ = 0 := Nat.floor_eq_zero.mpr hd1
    unfold interp delayedBy
    rw [this]
    simp
  rw [hv] at h1
  obtain ⟨m0, m1, g0, g1, hn⟩ := LinearDelay.nextOut_eq (b := b) hr hdn (by omega)
  rw [hmem, List.getElem?_replicate] at g0 g1
  have z0 : m0 = 0 := by
    split at g0
    · cases g0; rfl
    · cases g0
  have z1 : m1 = 0 := by
    split at g1
    · cases g1; rfl
    · cases g1
  rw [z0, z1] at hn
  simp only [real_add, real_mul, zero_mul, add_zero] at hn
  obtain ⟨s2, h2, -⟩ := LinearDelay.process_cached (b := b)
    (s := { s with next_out := (0 : ℝ), do_next_out := false }) ⟨hi.hw, hi.cap⟩ hr rfl x
  exact ⟨s, _, _, s2, hnew, h1, hn, h2⟩

/-! ## C28 -/

theorem LinearDelay.step_tuned [Target] {s s' : LinearDelay ℝ ℝ} {op : LinOp ℝ ℝ} {o : Obs ℝ} (hi : s.WInv) (ht : s.Tuned)
    (ho : op.InRange s.memory.length) (h : s.step b op = .ok (s', o)) :
    s'.WInv ∧ s'.Tuned ∧ s'.memory.length = s.memory.length ∧
      ∀ ops, pendingAfter (!s.do_next_out) (op :: ops) = pendingAfter (!s'.do_next_out) ops := by
  obtain ⟨h0, he, ha, hoa⟩ := ht
  cases op with
  | process x =>
    simp only [LinearDelay.step, Res.bind_ok] at h
    obtain ⟨⟨s1, y⟩, h1, h⟩ := h
    cases h
    have hnx : LinearDelay.Next s s1 x y := by
      cases hd : s.do_next_out
      · obtain ⟨s2, hp, hnx⟩ := LinearDelay.process_cached (b := b) hi (he.lt hi.hw) hd x
        rw [h1] at hp
        cases hp
        exact hnx
      · obtain ⟨s2, m0, m1, -, -, hp, hnx⟩ := LinearDelay.process_spec (b := b) hi he hd x
        rw [h1] at hp
        cases hp
        exact hnx
    refine ⟨hnx.winv, ⟨?_, ?_, ?_, ?_⟩, hnx.len, fun ops => ?_⟩
    · rw [hnx.delay]; exact h0
    · rw [hnx.delay]; exact hnx.eff _ he
    · rw [hnx.delay, hnx.alpha]; exact ha
    · rw [hnx.om_alpha, hnx.alpha]; exact hoa
    · rw [hnx.fresh]; rfl
  | setDelay d =>
    simp only [LinearDelay.step, Res.bind_ok] at h
    obtain ⟨s1, h1, h⟩ := h
    cases h
    obtain ⟨s2, h2, ht, -⟩ := LinearDelay.setDelay_real (b := b) hi d
    rw [h1] at h2
    cases h2
    obtain ⟨hmem, hw, -, hd, -⟩ := LinearDelay.setDelay_frame h1
    refine ⟨⟨by rw [hmem, hw]; exact hi.hw, by rw [hmem]; exact hi.cap⟩, ht, by rw [hmem], fun ops => ?_⟩
    rw [hd]; rfl
  | setMaxDelay m =>
    simp only [LinearDelay.step, LinearDelay.setMaxDelay_small ho, Res.ok_bind] at h
    cases h
    exact ⟨hi, ⟨h0, he, ha, hoa⟩, rfl, fun _ => rfl⟩
  | nextOut =>
    simp only [LinearDelay.step, Res.bind_ok] at h
    obtain ⟨⟨s1, y⟩, h1, h⟩ := h
    cases h
    obtain rfl := LinearDelay.nextOut_frame h1
    exact ⟨⟨hi.hw, hi.cap⟩, ⟨h0, he, ha, hoa⟩, rfl, fun _ => rfl⟩
  | tapOut k =>
    simp only [LinearDelay.step, Res.bind_ok] at h
    obtain ⟨_, _, h⟩ := h
    cases h
    exact ⟨hi, ⟨h0, he, ha, hoa⟩, rfl, fun _ => rfl⟩
  | tapIn v k =>
    obtain ⟨m, h1, -, hl⟩ := LinearDelay.tapIn_spec (b := b) hi (k := k) ho v
    simp only [LinearDelay.step, h1, Res.ok_bind] at h
    cases h
    refine ⟨⟨by simpa [hl] using hi.hw, by simpa [hl] using hi.cap⟩, ⟨h0, ?_, ha, hoa⟩, hl, fun _ => rfl⟩
    unfold LinearDelay.Eff
    simp only [hl]
    exact he
  | addTo v k =>
    obtain ⟨m, y, -, h1, -, hl⟩ := LinearDelay.addTo_spec (b := b) hi (k := k) ho v
    simp only [LinearDelay.step, h1, Res.ok_bind] at h
    cases h
    refine ⟨⟨by simpa [hl] using hi.hw, by simpa [hl] using hi.cap⟩, ⟨h0, ?_, ha, hoa⟩, hl, fun _ => rfl⟩
    unfold LinearDelay.Eff
    simp only [hl]
    exact he
  | clear =>
    simp only [LinearDelay.step] at h
    cases h
    refine ⟨⟨by simpa [LinearDelay.clear] using hi.hw, by simpa [LinearDelay.clear] using hi.cap⟩,
      ⟨h0, ?_, ha, hoa⟩, by simp [LinearDelay.clear], fun _ => rfl⟩
    unfold LinearDelay.Eff LinearDelay.clear
    simp only [List.length_map]
    exact he

theorem LinearDelay.run_tuned [Target] {ops : List (LinOp ℝ ℝ)} : ∀ {s s' : LinearDelay ℝ ℝ} {os : List (Obs ℝ)}, s.WInv →
    s.Tuned → (∀ op ∈ ops, op.InRange s.memory.length) → s.run b ops = .ok (s', os) →
    s'.WInv ∧ s'.Tuned ∧ (pendingAfter (!s.do_next_out) ops = !s'.do_next_out) := by
  induction ops with
  | nil => intro s s' os hi ht _ h; cases h; exact ⟨hi, ht, rfl⟩
  | cons op ops ih =>
    intro s s' os hi ht ho h
    simp only [LinearDelay.run, Res.bind_ok] at h
    obtain ⟨⟨s1, o⟩, h1, ⟨s2, os'⟩, h2, h⟩ := h
    cases h
    obtain ⟨hi1, ht1, hl1, hp1⟩ := LinearDelay.step_tuned hi ht (ho op (by simp)) h1
    obtain ⟨a1, a2, a3⟩ := ih hi1 ht1 (fun q hq => by rw [hl1]; exact ho q (by simp [hq])) h2
    exact ⟨a1, a2, (hp1 ops).trans a3⟩

/-- **C28** (and C20 for every history): whatever was done before (without growing the line), if no `next_out` is
pending, then after `clear` the line answers exactly as the interpolation of the new samples alone. -/
theorem C28_clear_empties [Target] {m : ℕ} (hm : Allocatable ℝ m) {d : ℝ} {s s1 : LinearDelay ℝ ℝ}
    (hnew : LinearDelay.new b d m = .ok s) {ops : List (LinOp ℝ ℝ)} {os : List (Obs ℝ)}
    (ho : ∀ op ∈ ops, op.InRange (m + 1)) (hrun : s.run b ops = .ok (s1, os)) (hp : pendingAfter false ops = false)
    (x y : ℕ → ℝ) : Responds b s1.clear x y ↔ y = interp s1.getDelay [] x := by
  obtain ⟨hmem, -, hi, hdn, -⟩ := LinearDelay.new_frame hm hnew
  have ht := LinearDelay.new_real hm hnew
  have hl : s.memory.length = m + 1 := by rw [hmem, List.length_replicate]
  obtain ⟨hi1, ht1, hp1⟩ := LinearDelay.run_tuned hi ht (by rw [hl]; exact ho) hrun
  rw [hdn] at hp1
  have hd1 : s1.do_next_out = true := by
    have := hp.symm.trans hp1
    simpa using this.symm
  have hc : s1.step b .clear = .ok (s1.clear, .unit) := rfl
  obtain ⟨hi2, ht2, -, -⟩ := LinearDelay.step_tuned hi1 ht1 (op := .clear) trivial hc
  have hr := ht2.responds (b := b) hi2 hd1 x
  have hh : s1.clear.hist = List.replicate s1.memory.length 0 := by
    unfold LinearDelay.hist LinearDelay.clear
    simp only [List.map_const']
    rw [histOf_replicate]; rfl
  rw [hh, interp_replicate] at hr
  exact ⟨fun h => h.unique hr, fun h => h ▸ hr⟩

/-- **C28** refuted when a `next_out` is pending: delay 1, process 5, look ahead (5), clear; the next output is 5. -/
theorem C28_false_with_pending [Target] : ∃ s s1 s2 s3 : LinearDelay ℝ ℝ, LinearDelay.new b 1 3 = .ok s ∧
    s.process b 5 = .ok (s1, 0) ∧ s1.nextOut b = .ok (s2, 5) ∧ s2.clear.process b 0 = .ok (s3, 5) := by
  have hm : Allocatable ℝ 3 := by
    unfold Allocatable
    have : size ℝ = 8 := rfl
    rw [this]; have := target; omega
  obtain ⟨s, hnew, hgd, hresp⟩ := C20_new_interpolates (b := b) hm 1
  have hD : max 0 (min (1 : ℝ) ((3 : ℕ) : ℝ)) = 1 := by norm_num
  rw [hD] at hgd hresp
  obtain ⟨st, h0, hst⟩ := (hresp (fun n => if n = 0 then 5 else 0) _).mpr rfl
  have h1 := hst 0
  rw [h0] at h1
  have hv0 : interp 1 [] (fun n => if n = 0 then (5 : ℝ) else 0) 0 = 0 := by
    unfold interp delayedBy; simp
  rw [hv0] at h1
  have hR := LinearDelay.Reachable.new hm hnew
  have hR1 : LinearDelay.Reachable b (st 1) := by
    refine .step hR (op := .process 5) trivial (o := .sample 0) ?_
    have h1' : s.process b 5 = .ok (st 1, 0) := h1
    simp only [LinearDelay.step, h1', Res.ok_bind]
  have h1' : s.process b 5 = .ok (st 1, 0) := h1
  obtain ⟨⟨s2, o⟩, h2⟩ := C24_never_panics_real hR1 (op := .nextOut) trivial
  simp only [LinearDelay.step, Res.bind_ok] at h2
  obtain ⟨⟨s2', v⟩, h2, h3⟩ := h2
  cases h3
  have hi1 := hR1.winv
  have hr1 : (st 1).read_ptr < (st 1).memory.length := by
    obtain ⟨e, he, -⟩ := hR1.rinv.read
    exact he.lt hi1.hw
  have hgd1 : 1 ≤ (st 1).getDelay := by
    have ht := LinearDelay.new_real hm hnew
    obtain ⟨hmem, -, hi, hdn, -⟩ := LinearDelay.new_frame hm hnew
    obtain ⟨s3, m0, m1, -, -, hp, hnx⟩ := LinearDelay.process_spec (b := b) hi ht.eff hdn 5
    rw [h1'] at hp
    have hs3 : st 1 = s3 := (Prod.mk.inj (Except.ok.inj hp)).1
    show 1 ≤ (st 1).delay
    rw [hs3, hnx.delay]
    exact hgd.ge
  -- the announced value is the next output of the undisturbed stream
  obtain ⟨st', g0, gst⟩ := (C27_nextOut_only_observes hR1 hgd1 h2 (fun n => if n + 1 = 0 then 5 else 0) _).mp
    ⟨fun n => st (n + 1), rfl, fun n => hst (n + 1)⟩
  have g1 := gst 0
  rw [g0] at g1
  have hv : v = 5 := by
    have h5 := (C26_nextOut_announces h2).2 _ _ _ g1
    rw [← h5]
    unfold interp delayedBy
    norm_num
  subst hv
  obtain rfl := LinearDelay.nextOut_frame h2
  have hiC : (LinearDelay.clear { st 1 with next_out := (5 : ℝ), do_next_out := false }).WInv :=
    ⟨by simpa [LinearDelay.clear] using hi1.hw, by simpa [LinearDelay.clear] using hi1.cap⟩
  obtain ⟨s4, h4, -⟩ := LinearDelay.process_cached (b := b) hiC (by simpa [LinearDelay.clear] using hr1) rfl 0
  exact ⟨s, st 1, _, s4, hnew, h1', h2, h4⟩

end Rasp
