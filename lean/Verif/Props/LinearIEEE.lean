import Verif.Lemmas.LinearFP
import Verif.Props.LinearReal
import Verif.Props.Delay

/-!
# C21–C25: `LinearDelay` in IEEE arithmetic (delay time in `f32`, samples in any format)
-/

namespace Rasp
open FloatOps

variable {L32 : Libm binary32} {f : Fmt} {L : Libm f} {b : Build}

/-! ## C21 -/

/-- `r` is `d` clipped to `[0, M]`. -/
def ClippedTo (d M r : Fl L32) : Prop :=
  (d.IsNaN → r.IsNaN) ∧ (d.Finite → r.Finite ∧ r.toReal = max 0 (min d.toReal M.toReal)) ∧
    (d = Fl.inf L32 false → r = M) ∧ (d = Fl.inf L32 true → r = zero)

theorem clipDelay_clipped (d : Fl L32) {M : Fl L32} (hM : M.Finite) (hM0 : 0 ≤ M.toReal) :
    ClippedTo d M (clipDelay d M) := by
  refine ⟨fun h => by rwa [clipDelay_nan h], fun h => clipDelay_fin h hM hM0, ?_, ?_⟩
  · rintro rfl; exact clipDelay_pinf hM hM0
  · rintro rfl; exact clipDelay_ninf hM

theorem setDelay_delay [Target] {s s' : LinearDelay (Fl L32) (Fl L)} {d : Fl L32} (h1 : 1 ≤ s.memory.length)
    (h : s.setDelay b d = .ok s') : s'.delay = clipDelay d (ofUsize (s.memory.length - 1)) := by
  unfold LinearDelay.setDelay at h
  rw [uSub_ok h1, Res.ok_bind] at h
  simp only [Res.bind_ok] at h
  obtain ⟨_, -, h⟩ := h
  cases h
  rfl

theorem ofUsize_nonneg {n : ℕ} (hn : n ≤ 2 ^ 64) : 0 ≤ (ofUsize n : Fl L32).toReal := by
  rw [(ofUsize_fp hn).2]; exact rnd_nonneg (by positivity)

theorem len_le_63 [Target] {s : LinearDelay (Fl L32) (Fl L)} (hi : s.WInv) : s.memory.length ≤ 2 ^ 63 := by
  have := hi.len_le
  have := target; omega

theorem setDelay_clips [Target] {s s' : LinearDelay (Fl L32) (Fl L)} (hs : LinearDelay.Reachable b s) {d : Fl L32} {mx : ℕ}
    (hmx : s.getMaxDelay b = .ok mx) (h : s.setDelay b d = .ok s') : ClippedTo d (ofUsize mx) s'.getDelay := by
  have hi := hs.winv
  have hw := hi.hw
  have hl := len_le_63 hi
  unfold LinearDelay.getMaxDelay at hmx
  rw [uSub_ok (by omega)] at hmx
  cases hmx
  show ClippedTo d _ s'.delay
  rw [setDelay_delay (by omega) h]
  exact clipDelay_clipped d (ofUsize_fp (by omega)).1 (ofUsize_nonneg (by omega))

theorem clipDelay_idem (d : Fl L32) {M : Fl L32} (hM : M.Finite) (hM0 : 0 ≤ M.toReal) :
    clipDelay (clipDelay d M) M = clipDelay d M := by
  rcases clipDelay_cases d hM hM0 with ⟨h1, h2⟩ | ⟨h1, h2, h3⟩
  · rw [h2, h2]
  · generalize clipDelay d M = c at *
    unfold clipDelay
    rw [(Fl.lt_false_iff hM h1).mpr h3]
    simp only [Bool.false_eq_true, if_false]
    rw [(Fl.lt_false_iff h1 Fl.zero_finite).mpr (by simpa using h2)]
    rfl

theorem new_eq_setDelay [Target] {d : Fl L32} {m : ℕ} (hm : Allocatable (Fl L) m) :
    LinearDelay.new (T := Fl L) b d m = LinearDelay.setDelay b
      { memory := List.replicate (m + 1) zero, output := zero, read_ptr := 0, write_ptr := 0, delay := zero,
        do_next_out := true, next_out := zero, alpha := zero, om_alpha := zero } (clipDelay d (ofUsize m)) := by
  have hm' := hm
  unfold Allocatable at hm'
  have hlen : m + 1 ≤ isizeMax := le_isizeMax_of_mul (size_pos (T := Fl L)) hm'
  unfold LinearDelay.new
  rw [uAdd_ok (by have := isizeMax_lt; omega), Res.ok_bind]
  unfold vecNew
  rw [if_pos hm', Res.ok_bind]

theorem alloc_le [Target] {m : ℕ} (hm : Allocatable (Fl L) m) : m + 1 ≤ 2 ^ 63 := by
  have : m + 1 ≤ isizeMax := le_isizeMax_of_mul (size_pos (T := Fl L)) hm
  have := target; omega

theorem new_clips [Target] {d : Fl L32} {m : ℕ} (hm : Allocatable (Fl L) m) {s : LinearDelay (Fl L32) (Fl L)}
    (h : LinearDelay.new b d m = .ok s) : ClippedTo d (ofUsize m) s.getDelay := by
  have hl := alloc_le hm
  rw [new_eq_setDelay hm] at h
  show ClippedTo d _ s.delay
  rw [setDelay_delay (by simp) h]
  simp only [List.length_replicate, Nat.add_sub_cancel]
  rw [clipDelay_idem _ (ofUsize_fp (by omega)).1 (ofUsize_nonneg (by omega))]
  exact clipDelay_clipped d (ofUsize_fp (by omega)).1 (ofUsize_nonneg (by omega))

theorem setDelay_nan_state [Target] {s : LinearDelay (Fl L32) (Fl L)} (hi : s.WInv) {d : Fl L32} (hd : d.IsNaN) :
    ∃ s', s.setDelay b d = .ok s' ∧ s'.read_ptr = 0 ∧ s'.alpha.IsNaN ∧ s'.om_alpha.IsNaN := by
  have hw := hi.hw
  obtain ⟨pos, hpos, hnan, -⟩ := loop_nan (w := s.write_ptr) (n := s.memory.length) hd
  rw [← clipDelay_nan hd (ofUsize (s.memory.length - 1))] at hpos
  have h := LinearDelay.setDelay_eq (b := b) (T := Fl L) (s := s) (by omega) hpos
  have hu : DelayTime.toUsize (Fl L) pos = 0 := by
    obtain ⟨t, rfl⟩ := Fl.isNaN_iff.mp hnan
    rfl
  simp only [hu] at h
  rw [if_neg (show ¬ 0 = s.memory.length by omega)] at h
  refine ⟨_, h, rfl, ?_, ?_⟩
  · have h2 : (pos -. ofUsize 0 : Fl L32).IsNaN := Fl.sub_nan_left hnan
    obtain ⟨t, ht⟩ := Fl.isNaN_iff.mp h2
    show Fl.IsNaN (DelayTime.castTo (pos -. ofUsize 0) : Fl L)
    rw [ht]
    trivial
  · refine Fl.sub_nan_right ?_
    have h2 : (pos -. ofUsize 0 : Fl L32).IsNaN := Fl.sub_nan_left hnan
    obtain ⟨t, ht⟩ := Fl.isNaN_iff.mp h2
    show Fl.IsNaN (DelayTime.castTo (pos -. ofUsize 0) : Fl L)
    rw [ht]
    trivial

theorem setDelay_total [Target] {s : LinearDelay (Fl L32) (Fl L)} (hi : s.WInv) (d : Fl L32) :
    ∃ s', s.setDelay b d = .ok s' := by
  have hw := hi.hw
  have hl := len_le_63 hi
  rcases clipDelay_cases d (ofUsize_fp (L32 := L32) (n := s.memory.length - 1) (by omega)).1
    (ofUsize_nonneg (by omega)) with ⟨h1, h2⟩ | ⟨h1, h2, h3⟩
  · obtain ⟨s', h, -⟩ := setDelay_nan_state (b := b) hi h1
    exact ⟨s', h⟩
  · rw [(ofUsize_fp (by omega)).2] at h3
    obtain ⟨pos, hpos, -⟩ := loop_fin hw hl h1 h2 h3
    exact ⟨_, LinearDelay.setDelay_eq (b := b) (T := Fl L) (s := s) (by omega) hpos⟩

/-- **C21** for `set_delay`. -/
theorem C21_setDelay_clips [Target] {s : LinearDelay (Fl L32) (Fl L)} (hs : LinearDelay.Reachable b s) (d : Fl L32) {mx : ℕ}
    (hmx : s.getMaxDelay b = .ok mx) : ∃ s', s.setDelay b d = .ok s' ∧ ClippedTo d (ofUsize mx) s'.getDelay := by
  obtain ⟨s', h⟩ := setDelay_total (b := b) hs.winv d
  exact ⟨s', h, setDelay_clips hs hmx h⟩

/-- **C21** for `new`. -/
theorem C21_new_clips [Target] {m : ℕ} (hm : Allocatable (Fl L) m) (d : Fl L32) :
    ∃ s : LinearDelay (Fl L32) (Fl L), LinearDelay.new b d m = .ok s ∧ ClippedTo d (ofUsize m) s.getDelay := by
  have : ∃ s : LinearDelay (Fl L32) (Fl L), LinearDelay.new b d m = .ok s := by
    rw [new_eq_setDelay hm]
    exact setDelay_total ⟨by simp, by simpa [Allocatable] using hm⟩ _
  obtain ⟨s, h⟩ := this
  exact ⟨s, h, new_clips hm h⟩

/-- **C21**, NaN: after `set_delay(NaN)` (no `next_out` pending) the line keeps accepting samples and every output is
NaN, until the delay is set again. -/
theorem C21_nan_delay_gives_nan [Target] {s : LinearDelay (Fl L32) (Fl L)} (hs : LinearDelay.Reachable b s)
    (hd : s.do_next_out = true) {d : Fl L32} (hn : d.IsNaN) :
    ∃ s', s.setDelay b d = .ok s' ∧ ∀ x, ∃ y, Responds b s' x y ∧ ∀ n, (y n).IsNaN := by
  have hi := hs.winv
  obtain ⟨s', h, hr, ha, ho⟩ := setDelay_nan_state (b := b) hi hn
  obtain ⟨hmem, hw, -, hdn, -⟩ := LinearDelay.setDelay_frame h
  have hi' : s'.WInv := ⟨by rw [hmem, hw]; exact hi.hw, by rw [hmem]; exact hi.cap⟩
  have hw' := hi'.hw
  obtain ⟨e, he⟩ := LinearDelay.eff_of_lt hw' (by rw [hr]; omega)
  refine ⟨s', h, fun x => ⟨_, LinearDelay.responds (b := b) hi' he (hdn.trans hd) x, fun n => ?_⟩⟩
  exact Fl.add_nan_left (Fl.mul_nan_right ho)

/-! ## C22 -/

/-- **C22.** `set_delay` returns for every `f32`, whatever the size of the line. -/
theorem C22_setDelay_terminates [Target] {s : LinearDelay (Fl L32) (Fl L)} (hs : LinearDelay.Reachable b s) (d : Fl L32) :
    ∃ s', s.setDelay b d = .ok s' := setDelay_total hs.winv d

/-- **C22**, and its loop body runs at most once: the loop leaves either the start value `w - d` or `w - d + n`. -/
theorem C22_loop_at_most_once {w n : ℕ} (hw : w < n) (hn : n ≤ 2 ^ 63) (d : Fl L32) :
    let x := ofUsize w -. clipDelay d (ofUsize (n - 1))
    let r := whileLoop (fun x : Fl L32 => lt x zero) (fun x => x +. ofUsize n) x
    r = .ok x ∨ r = .ok (x +. ofUsize n) := by
  rcases clipDelay_cases d (ofUsize_fp (L32 := L32) (n := n - 1) (by omega)).1
    (ofUsize_nonneg (by omega)) with ⟨h1, h2⟩ | ⟨h1, h2, h3⟩
  · obtain ⟨pos, hpos, -, heq⟩ := loop_nan (w := w) (n := n) h1
    simp only [h2]
    rw [hpos, heq]
    exact .inl rfl
  · rw [(ofUsize_fp (by omega)).2] at h3
    obtain ⟨pos, hpos, -, -, -, heq⟩ := loop_fin hw hn h1 h2 h3
    simp only
    rw [hpos]
    rcases heq with h | h <;> rw [h]
    · exact .inl rfl
    · exact .inr rfl

/-! ## C24 -/

theorem setDelay_in_bounds [Target] {s s' : LinearDelay (Fl L32) (Fl L)} (hi : s.WInv) (hrep : IsRep binary32 s.memory.length)
    {d : Fl L32} (h : s.setDelay b d = .ok s') : s'.read_ptr < s.memory.length := by
  have hw := hi.hw
  have hl := len_le_63 hi
  rcases clipDelay_cases d (ofUsize_fp (L32 := L32) (n := s.memory.length - 1) (by omega)).1
    (ofUsize_nonneg (by omega)) with ⟨h1, h2⟩ | ⟨h1, h2, h3⟩
  · obtain ⟨s2, h4, h5, -⟩ := setDelay_nan_state (b := b) hi h1
    rw [h] at h4
    cases h4
    omega
  · rw [(ofUsize_fp (by omega)).2] at h3
    obtain ⟨pos, hpos, p1, p2, -⟩ := loop_fin hw hl h1 h2 h3
    have h4 := LinearDelay.setDelay_eq (b := b) (T := Fl L) (s := s) (by omega) hpos
    rw [h] at h4
    cases h4
    show (if _ then _ else _) < _
    have hle : DelayTime.toUsize (Fl L) pos ≤ s.memory.length := by
      apply toUsize_le
      · rw [p2]; exact posOf_le hw hrep h2
      · rintro rfl; exact p1
    split <;> omega

/-- Invariant behind C24. -/
theorem LinearDelay.ReachableVia.inv [Target] {s : LinearDelay (Fl L32) (Fl L)}
    (h : LinearDelay.ReachableVia b (fun n => IsRep binary32 n) s) :
    LinearDelay.Reachable b s ∧ s.read_ptr < s.memory.length ∧ IsRep binary32 s.memory.length := by
  induction h with
  | new hm h hP =>
    rename_i d m s
    refine ⟨.new hm h, ?_, hP⟩
    obtain ⟨hmem, -⟩ := LinearDelay.new_frame hm h
    rw [new_eq_setDelay hm] at h
    have hm' := hm
    unfold Allocatable at hm'
    rw [hmem] at hP ⊢
    have := setDelay_in_bounds (b := b) ⟨by simp, by simpa using hm'⟩ (by simpa using hP) h
    simpa using this
  | step hs ho h hP ih =>
    rename_i s s' op o
    obtain ⟨hR, hr, hrep⟩ := ih
    refine ⟨.step hR ho h, ?_, hP⟩
    have hi := hR.winv
    have hw := hi.hw
    cases op with
    | process x =>
      simp only [LinearDelay.step, Res.bind_ok] at h
      obtain ⟨⟨s1, y⟩, h1, h⟩ := h
      cases h
      obtain ⟨e, he⟩ := LinearDelay.eff_of_lt hw hr
      have hnx : LinearDelay.Next s s1 x y := by
        cases hd : s.do_next_out
        · obtain ⟨s2, hp, hnx⟩ := LinearDelay.process_cached (b := b) hi hr hd x
          rw [h1] at hp
          cases hp
          exact hnx
        · obtain ⟨s2, m0, m1, -, -, hp, hnx⟩ := LinearDelay.process_spec (b := b) hi he hd x
          rw [h1] at hp
          cases hp
          exact hnx
      exact (hnx.eff e he).lt hnx.winv.hw
    | setDelay d =>
      simp only [LinearDelay.step, Res.bind_ok] at h
      obtain ⟨s1, h1, h⟩ := h
      cases h
      rw [(LinearDelay.setDelay_frame h1).1]
      exact setDelay_in_bounds hi hrep h1
    | setMaxDelay m =>
      simp only [LinearDelay.step, Res.bind_ok] at h
      obtain ⟨s1, h1, h⟩ := h
      cases h
      by_cases hc : m < s.memory.length
      · rw [LinearDelay.setMaxDelay_small hc] at h1
        cases h1
        exact hr
      · rw [LinearDelay.setMaxDelay_grow (by omega) ho] at h1
        cases h1
        simp only [List.length_append]; omega
    | nextOut =>
      simp only [LinearDelay.step, Res.bind_ok] at h
      obtain ⟨⟨s1, y⟩, h1, h⟩ := h
      cases h
      obtain rfl := LinearDelay.nextOut_frame h1
      exact hr
    | tapOut k =>
      simp only [LinearDelay.step, Res.bind_ok] at h
      obtain ⟨_, _, h⟩ := h
      cases h
      exact hr
    | tapIn v k =>
      obtain ⟨m, h1, -, hl⟩ := LinearDelay.tapIn_spec (b := b) hi (k := k) ho v
      simp only [LinearDelay.step, h1, Res.ok_bind] at h
      cases h
      simpa [hl] using hr
    | addTo v k =>
      obtain ⟨m, y, -, h1, -, hl⟩ := LinearDelay.addTo_spec (b := b) hi (k := k) ho v
      simp only [LinearDelay.step, h1, Res.ok_bind] at h
      cases h
      simpa [hl] using hr
    | clear =>
      simp only [LinearDelay.step] at h
      cases h
      simpa [LinearDelay.clear] using hr

/-- **C24.** As long as the number of slots is an `f32` value (in particular up to 2^24), no call with allowed arguments
panics or loops, in any state reached by such calls, for any `f32` delay times including NaN. -/
theorem C24_never_panics [Target] {s : LinearDelay (Fl L32) (Fl L)}
    (hs : LinearDelay.ReachableVia b (fun n => IsRep binary32 n) s) {op : LinOp (Fl L32) (Fl L)} (ho : op.Legal s) :
    ∃ r, s.step b op = .ok r := by
  obtain ⟨hR, hr, -⟩ := hs.inv
  have hi := hR.winv
  have hlen := hi.len_le
  have hmod := isizeMax_lt
  obtain ⟨e, he⟩ := LinearDelay.eff_of_lt hi.hw hr
  cases op with
  | process x =>
    cases hd : s.do_next_out
    · obtain ⟨s2, hp, -⟩ := LinearDelay.process_cached (b := b) hi hr hd x
      simp only [LinearDelay.step, hp, Res.ok_bind]; exact ⟨_, rfl⟩
    · obtain ⟨s2, m0, m1, -, -, hp, -⟩ := LinearDelay.process_spec (b := b) hi he hd x
      simp only [LinearDelay.step, hp, Res.ok_bind]; exact ⟨_, rfl⟩
  | setDelay d =>
    obtain ⟨s2, hp⟩ := C22_setDelay_terminates hR d
    simp only [LinearDelay.step, hp, Res.ok_bind]; exact ⟨_, rfl⟩
  | setMaxDelay m =>
    by_cases hc : m < s.memory.length
    · simp only [LinearDelay.step, LinearDelay.setMaxDelay_small hc, Res.ok_bind]; exact ⟨_, rfl⟩
    · simp only [LinearDelay.step, LinearDelay.setMaxDelay_grow (Nat.le_of_not_lt hc) ho, Res.ok_bind]; exact ⟨_, rfl⟩
  | nextOut =>
    cases hd : s.do_next_out
    · have : s.nextOut b = .ok (s, s.next_out) := by unfold LinearDelay.nextOut; rw [if_neg (by simp [hd])]
      simp only [LinearDelay.step, this, Res.ok_bind]; exact ⟨_, rfl⟩
    · obtain ⟨m0, m1, -, -, hp⟩ := LinearDelay.nextOut_eq (b := b) hr hd (by omega)
      simp only [LinearDelay.step, hp, Res.ok_bind]; exact ⟨_, rfl⟩
  | tapOut k =>
    obtain ⟨y, hp, -⟩ := LinearDelay.tapOut_spec (b := b) hi (k := k) ho
    simp only [LinearDelay.step, hp, Res.ok_bind]; exact ⟨_, rfl⟩
  | tapIn v k =>
    obtain ⟨m, hp, -⟩ := LinearDelay.tapIn_spec (b := b) hi (k := k) ho v
    simp only [LinearDelay.step, hp, Res.ok_bind]; exact ⟨_, rfl⟩
  | addTo v k =>
    obtain ⟨m, y, -, hp, -⟩ := LinearDelay.addTo_spec (b := b) hi (k := k) ho v
    simp only [LinearDelay.step, hp, Res.ok_bind]; exact ⟨_, rfl⟩
  | clear => exact ⟨_, rfl⟩

/-- The number of slots never shrinks. -/
theorem LinearDelay.step_length_le [Target] {s s' : LinearDelay (Fl L32) (Fl L)} {op : LinOp (Fl L32) (Fl L)} {o : Obs (Fl L)}
    (hi : s.WInv) (ho : op.Legal s) (h : s.step b op = .ok (s', o)) : s.memory.length ≤ s'.memory.length := by
  cases op with
  | process x =>
    simp only [LinearDelay.step, Res.bind_ok] at h
    obtain ⟨⟨s1, y⟩, h1, h⟩ := h
    cases h
    exact (LinearDelay.process_frame hi h1).2.2.1.ge
  | setDelay d =>
    simp only [LinearDelay.step, Res.bind_ok] at h
    obtain ⟨s1, h1, h⟩ := h
    cases h
    rw [(LinearDelay.setDelay_frame h1).1]
  | setMaxDelay m =>
    simp only [LinearDelay.step, Res.bind_ok] at h
    obtain ⟨s1, h1, h⟩ := h
    cases h
    by_cases hc : m < s.memory.length
    · rw [LinearDelay.setMaxDelay_small hc] at h1
      cases h1
      exact le_rfl
    · rw [LinearDelay.setMaxDelay_grow (by omega) ho] at h1
      cases h1
      simp only [List.length_append]; omega
  | nextOut =>
    simp only [LinearDelay.step, Res.bind_ok] at h
    obtain ⟨⟨s1, y⟩, h1, h⟩ := h
    cases h
    obtain rfl := LinearDelay.nextOut_frame h1
    exact le_rfl
  | tapOut k =>
    simp only [LinearDelay.step, Res.bind_ok] at h
    obtain ⟨_, _, h⟩ := h
    cases h
    exact le_rfl
  | tapIn v k =>
    obtain ⟨m, h1, -, hl⟩ := LinearDelay.tapIn_spec (b := b) hi (k := k) ho v
    simp only [LinearDelay.step, h1, Res.ok_bind] at h
    cases h
    simp [hl]
  | addTo v k =>
    obtain ⟨m, y, -, h1, -, hl⟩ := LinearDelay.addTo_spec (b := b) hi (k := k) ho v
    simp only [LinearDelay.step, h1, Res.ok_bind] at h
    cases h
    simp [hl]
  | clear =>
    simp only [LinearDelay.step] at h
    cases h
    simp [LinearDelay.clear]

/-- **C24** for lines of at most 2^24 slots: no reachable state panics on an allowed call. -/
theorem C24_never_panics_small [Target] {s : LinearDelay (Fl L32) (Fl L)} (hs : LinearDelay.Reachable b s)
    (hl : s.memory.length ≤ 2 ^ 24) {op : LinOp (Fl L32) (Fl L)} (ho : op.Legal s) : ∃ r, s.step b op = .ok r := by
  refine C24_never_panics (b := b) ?_ ho
  clear ho
  induction hs with
  | new hm h => exact .new hm h (isRep32_nat hl)
  | step hs ho h ih => exact .step (ih ((LinearDelay.step_length_le hs.winv ho h).trans hl)) ho h (isRep32_nat hl)

end Rasp
