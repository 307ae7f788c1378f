import Verif.Props.LinearInt

/-!
# C27 in floating point: `LinearDelay::next_out` as an observation
-/

namespace Rasp
open FloatOps

section step
variable {D T : Type} [FloatOps D] [FloatOps T] [DelayTime D T] {b : Build}

omit [FloatOps D] [DelayTime D T] in
/-- A line whose read position is at least 2 behind: `process` after `next_out` is `process` (any arithmetic). -/
theorem LinearDelay.observe_far [Target] {s s' : LinearDelay D T} {v : T} (hi : s.WInv) {e : ℕ} (he : s.Eff e) (h2 : 2 ≤ e)
    (h : s.nextOut b = .ok (s', v)) (z : T) : s'.process b z = s.process b z := by
  have hr := he.lt hi.hw
  have hlen := hi.len_le
  have hmod := isizeMax_lt
  have hw := hi.hw
  cases hd : s.do_next_out
  · have : s.nextOut b = .ok (s, s.next_out) := by unfold LinearDelay.nextOut; rw [if_neg (by simp [hd])]
    rw [h] at this
    cases this
    rfl
  · obtain ⟨m0, m1, g0, g1, hn⟩ := LinearDelay.nextOut_eq (b := b) hr hd (by omega)
    rw [h] at hn
    cases hn
    obtain ⟨p0, p1, q0, q1, hq⟩ := LinearDelay.nextOut_eq (b := b) (s := s.pushed z)
      (by simpa [LinearDelay.pushed] using hr) hd (by simp [LinearDelay.pushed]; omega)
    simp only [LinearDelay.pushed, List.length_set] at q0 q1 hq
    have e1 := he.1
    have e2 := he.2
    have hne0 : s.write_ptr ≠ s.read_ptr := by split at e2 <;> omega
    have hne1 : s.write_ptr ≠ (s.read_ptr + 1) % s.memory.length := by
      rw [succ_mod hr]
      split at e2 <;> split <;> omega
    rw [List.getElem?_set_ne hne0, g0] at q0
    rw [List.getElem?_set_ne hne1, g1] at q1
    cases q0
    cases q1
    have hp := LinearDelay.process_eq (b := b) hi hr z ⟨_, hq⟩
    obtain ⟨w, hw⟩ : ∃ w, w = (m0 *. s.om_alpha) +. (m1 *. s.alpha) := ⟨_, rfl⟩
    rw [← hw] at hp ⊢
    have hn2 : LinearDelay.nextOut b (LinearDelay.pushed { s with next_out := w, do_next_out := false } z) =
        .ok (LinearDelay.pushed { s with next_out := w, do_next_out := false } z, w) := by
      unfold LinearDelay.nextOut
      rw [if_neg (by simp [LinearDelay.pushed])]
      rfl
    have hp2 := LinearDelay.process_eq (b := b)
      (s := { s with next_out := w, do_next_out := false }) ⟨hi.hw, hi.cap⟩ hr z ⟨_, hn2⟩
    rw [hp, hp2]
    rfl

omit [FloatOps D] [DelayTime D T] in
/-- Two states with the same `process` answer every stream alike. -/
theorem LinearDelay.responds_congr [Target] {s s' : LinearDelay D T} (key : ∀ z, s'.process b z = s.process b z) (x y : ℕ → T) :
    Responds b s x y ↔ Responds b s' x y := by
  constructor
  · rintro ⟨st, h0, hst⟩
    refine ⟨fun n => if n = 0 then _ else st n, if_pos rfl, fun n => ?_⟩
    cases n with
    | zero =>
      have h1 := hst 0
      rw [h0] at h1
      simp only [if_true]
      exact (key _).trans h1
    | succ n => simpa using hst (n + 1)
  · rintro ⟨st, h0, hst⟩
    refine ⟨fun n => if n = 0 then s else st n, if_pos rfl, fun n => ?_⟩
    cases n with
    | zero =>
      have h1 := hst 0
      rw [h0] at h1
      simp only [if_true]
      exact (key _).symm.trans h1
    | succ n => simpa using hst (n + 1)

omit [FloatOps D] [DelayTime D T] in
/-- After the first sample, a line answers alike with and without a preceding `next_out`. -/
theorem LinearDelay.observe_later [Target] {s s' : LinearDelay D T} {v : T} (hi : s.WInv) {e : ℕ} (he : s.Eff e)
    (h : s.nextOut b = .ok (s', v)) {x y y' : ℕ → T} (hy : Responds b s x y) (hy' : Responds b s' x y') :
    ∀ n, y (n + 1) = y' (n + 1) := by
  obtain ⟨st, h0, hst⟩ := hy
  obtain ⟨st', h0', hst'⟩ := hy'
  have hr := he.lt hi.hw
  have hlen := hi.len_le
  have hmod := isizeMax_lt
  obtain rfl := LinearDelay.nextOut_frame h
  have a1 := hst 0
  have b1 := hst' 0
  rw [h0] at a1
  rw [h0'] at b1
  -- the states after one sample differ in `output` and the stale `next_out` only
  have k1 : ∃ u, st 1 = s.stepped (x 0) u := by
    cases hd : s.do_next_out
    · have hn : LinearDelay.nextOut b (s.pushed (x 0)) = .ok (s.pushed (x 0), s.next_out) := by
        unfold LinearDelay.nextOut
        rw [if_neg (by simp [LinearDelay.pushed, hd])]
        rfl
      have hp := LinearDelay.process_eq (b := b) hi hr (x 0) ⟨_, hn⟩
      exact ⟨_, (Prod.mk.inj (Except.ok.inj (a1.symm.trans hp))).1⟩
    · obtain ⟨p0, p1, q0, q1, hq⟩ := LinearDelay.nextOut_eq (b := b) (s := s.pushed (x 0))
        (by simpa [LinearDelay.pushed] using hr) hd (by simp [LinearDelay.pushed]; omega)
      have hp := LinearDelay.process_eq (b := b) hi hr (x 0) ⟨_, hq⟩
      exact ⟨_, (Prod.mk.inj (Except.ok.inj (a1.symm.trans hp))).1⟩
  have k2 : st' 1 = s.stepped (x 0) v := by
    have hn : LinearDelay.nextOut b (LinearDelay.pushed { s with next_out := v, do_next_out := false } (x 0)) =
        .ok (LinearDelay.pushed { s with next_out := v, do_next_out := false } (x 0), v) := by
      unfold LinearDelay.nextOut
      rw [if_neg (by simp [LinearDelay.pushed])]
      rfl
    have hp := LinearDelay.process_eq (b := b)
      (s := { s with next_out := v, do_next_out := false }) ⟨hi.hw, hi.cap⟩ hr (x 0) ⟨_, hn⟩
    exact (Prod.mk.inj (Except.ok.inj (b1.symm.trans hp))).1
  obtain ⟨u, k1⟩ := k1
  have hiu := (LinearDelay.next_of hi (x 0) u)
  have hiv := (LinearDelay.next_of hi (x 0) v)
  have ru := LinearDelay.responds (b := b) hiu.winv (hiu.eff e he) hiu.fresh (fun n => x (n + 1))
  have rv := LinearDelay.responds (b := b) hiv.winv (hiv.eff e he) hiv.fresh (fun n => x (n + 1))
  have r1 : Responds b (s.stepped (x 0) u) (fun n => x (n + 1)) (fun n => y (n + 1)) :=
    ⟨fun n => st (n + 1), k1, fun n => hst (n + 1)⟩
  have r2 : Responds b (s.stepped (x 0) v) (fun n => x (n + 1)) (fun n => y' (n + 1)) :=
    ⟨fun n => st' (n + 1), k2, fun n => hst' (n + 1)⟩
  intro n
  have f1 := congrFun (r1.unique ru) n
  have f2 := congrFun (r2.unique rv) n
  exact f1.trans f2.symm

end step

variable {L32 : Libm binary32} {f : Fmt} {L : Libm f} {b : Build}

theorem toReal_nan32 {d : Fl L32} (h : d.IsNaN) : d.toReal = 0 := by
  obtain ⟨t, rfl⟩ := Fl.isNaN_iff.mp h
  rfl

/-- Where `set_delay` puts the read position, and the weights for delay 1. -/
theorem setDelay_far [Target] {s s' : LinearDelay (Fl L32) (Fl L)} (hi : s.WInv) (hl : s.memory.length ≤ 2 ^ 24) {d : Fl L32}
    (h : s.setDelay b d = .ok s') :
    ∃ e, s'.Eff e ∧ (2 ≤ s'.delay.toReal → 2 ≤ e) ∧
      (s'.delay.toReal = 1 → 2 ≤ e ∨ (e = 1 ∧ s'.alpha.Finite ∧ s'.alpha.toReal = 0 ∧ s'.om_alpha.Finite ∧
        s'.om_alpha.toReal = 1)) := by
  have hw := hi.hw
  have hrep : IsRep binary32 (s.memory.length : ℝ) := isRep32_nat hl
  have hint : ∀ i : ℤ, |i| ≤ 2 ^ 24 → rnd binary32 (i : ℝ) = i := fun i h => rnd_of_isRep (isRep_int (f := binary32) h)
  have hdel : s'.delay = clipDelay d (ofUsize (s.memory.length - 1)) := setDelay_delay (by omega) h
  obtain ⟨m1, m2⟩ := ofUsize_fp (L32 := L32) (n := s.memory.length - 1) (by omega)
  rw [rnd_of_isRep (isRep32_nat (by omega))] at m2
  have hrlt := setDelay_in_bounds hi hrep h
  obtain ⟨hmem, hwp, -⟩ := LinearDelay.setDelay_frame h
  obtain ⟨e, he⟩ := LinearDelay.eff_of_lt (s := s') (by rw [hmem, hwp]; exact hw) (by rw [hmem]; exact hrlt)
  refine ⟨e, he, ?_⟩
  rcases clipDelay_cases d m1 (by rw [m2]; positivity) with ⟨n1, n2⟩ | ⟨c1, c2, c3⟩
  · rw [hdel, n2, toReal_nan32 n1]
    exact ⟨fun h => by norm_num at h, fun h => by norm_num at h⟩
  rw [m2] at c3
  rw [hdel]
  obtain ⟨δ, hδ⟩ : ∃ δ, δ = (clipDelay d (ofUsize (s.memory.length - 1) : Fl L32)).toReal := ⟨_, rfl⟩
  rw [← hδ] at c2 c3 ⊢
  obtain ⟨pos, hpos, p1, p2, p3, -⟩ := loop_fin (w := s.write_ptr) (n := s.memory.length) hw (by omega) c1
    (by rw [← hδ]; exact c2)
    (by rw [← hδ, rnd_of_isRep (isRep32_nat (by omega))]; exact c3)
  rw [← hδ] at p2
  have hset := LinearDelay.setDelay_eq (b := b) (T := Fl L) (s := s) (by omega) hpos
  rw [h] at hset
  have hple : pos.toReal ≤ s.memory.length := by rw [p2]; exact posOf_le hw hrep c2
  -- the integer part of the position
  obtain ⟨r, hr⟩ : ∃ r : ℕ, r = ⌊pos.toReal⌋₊ := ⟨_, rfl⟩
  have hr1 : (r : ℝ) ≤ pos.toReal := by rw [hr]; exact Nat.floor_le p3
  have hr2 : pos.toReal < r + 1 := by rw [hr]; exact Nat.lt_floor_add_one _
  have hrn : r ≤ s.memory.length := by
    have : (r : ℝ) ≤ s.memory.length := hr1.trans hple
    exact_mod_cast this
  have hu : DelayTime.toUsize (Fl L) pos = r := toUsize_val p1 p3 (by have := target; omega) hr1 hr2
  simp only [hu] at hset
  cases hset
  have e1 := he.1
  have e2 := he.2
  simp only at e1 e2
  unfold posOf at p2
  simp only at p2
  rw [rnd_of_isRep (isRep32_nat (show s.write_ptr ≤ 2 ^ 24 by omega)), rnd_of_isRep hrep] at p2
  have hwr : (s.write_ptr : ℝ) ≤ 2 ^ 24 := by exact_mod_cast (by omega : s.write_ptr ≤ 2 ^ 24)
  constructor
  · intro hd2
    -- an upper bound for the rounded distance
    have hx : rnd binary32 ((s.write_ptr : ℝ) - δ) ≤ (s.write_ptr : ℝ) - 2 := by
      have := hint ((s.write_ptr : ℤ) - 2) (by rw [abs_le]; constructor <;> omega)
      push_cast at this
      rw [← this]
      exact rnd_mono (by linarith)
    have hn3 : 3 ≤ s.memory.length := by
      have : (2 : ℝ) ≤ ((s.memory.length - 1 : ℕ) : ℝ) := by linarith
      have : 2 ≤ s.memory.length - 1 := by exact_mod_cast this
      omega
    by_cases hc : rnd binary32 ((s.write_ptr : ℝ) - δ) < 0
    · rw [if_pos hc] at p2
      -- `pos ≥ w + 1`, because the delay is at most `n - 1`
      have hpw : ((s.write_ptr + 1 : ℕ) : ℝ) ≤ pos.toReal := by
        rw [p2]
        refine le_rnd_of_le (isRep32_nat (by omega)) ?_
        have : -((s.memory.length - 1 - s.write_ptr : ℕ) : ℝ) ≤ rnd binary32 ((s.write_ptr : ℝ) - δ) := by
          refine le_rnd_of_le (isRep32_nat (by omega)).neg ?_
          rw [Nat.cast_sub (by omega)]
          linarith
        rw [Nat.cast_sub (by omega), Nat.cast_sub (by omega)] at this
        push_cast at this ⊢
        linarith
      have hwr1 : s.write_ptr + 1 ≤ r := by
        rw [hr]; exact Nat.le_floor hpw
      -- pos ≤ n + min 0 (w - 2)
      have hub : s.write_ptr < 2 → r + 2 ≤ s.memory.length + s.write_ptr := by
        intro hw2
        have : pos.toReal ≤ ((s.memory.length + s.write_ptr - 2 : ℕ) : ℝ) := by
          rw [p2]
          refine rnd_le_of_le (isRep32_nat (by omega)) ?_
          rw [Nat.cast_sub (by omega)]
          push_cast
          linarith
        have h3 : (r : ℝ) ≤ ((s.memory.length + s.write_ptr - 2 : ℕ) : ℝ) := hr1.trans this
        have h4 : r ≤ s.memory.length + s.write_ptr - 2 := by exact_mod_cast h3
        omega
      by_cases hrn' : r = s.memory.length
      · rw [if_pos hrn'] at e2
        split at e2 <;> omega
      · rw [if_neg hrn'] at e2
        by_cases hw2 : s.write_ptr < 2
        · have := hub hw2
          split at e2 <;> omega
        · split at e2 <;> omega
    · rw [if_neg hc] at p2
      have h3 : (r : ℝ) + 2 ≤ s.write_ptr := by rw [p2] at hr1; linarith
      have h4 : r + 2 ≤ s.write_ptr := by exact_mod_cast h3
      rw [if_neg (show ¬ r = s.memory.length by omega)] at e2
      split at e2 <;> omega
  · intro hd1
    right
    rw [hd1] at p2
    have hx0 : rnd binary32 ((s.write_ptr : ℝ) - 1) = (s.write_ptr : ℝ) - 1 := by
      have := hint ((s.write_ptr : ℤ) - 1) (by rw [abs_le]; constructor <;> omega)
      simpa using this
    rw [hx0] at p2
    have hn2 : 2 ≤ s.memory.length := by
      have : (1 : ℝ) ≤ ((s.memory.length - 1 : ℕ) : ℝ) := by linarith
      have : 1 ≤ s.memory.length - 1 := by exact_mod_cast this
      omega
    have hslot : pos.toReal = ((if s.write_ptr = 0 then s.memory.length - 1 else s.write_ptr - 1 : ℕ) : ℝ) := by
      by_cases hw0 : s.write_ptr = 0
      · rw [if_pos hw0, p2, hw0]
        push_cast
        rw [if_pos (by norm_num), Nat.cast_sub (by omega)]
        have := hint (-1 + (s.memory.length : ℤ)) (by rw [abs_le]; constructor <;> omega)
        push_cast at this ⊢
        rw [zero_sub, this]; ring
      · rw [if_neg hw0, p2]
        have : (1 : ℝ) ≤ s.write_ptr := by exact_mod_cast (by omega : 1 ≤ s.write_ptr)
        rw [if_neg (by linarith), Nat.cast_sub (by omega)]
        push_cast; ring
    have hre : r = if s.write_ptr = 0 then s.memory.length - 1 else s.write_ptr - 1 := by
      rw [hr, hslot, Nat.floor_natCast]
    have hrn' : ¬ r = s.memory.length := by rw [hre]; split <;> omega
    have hpr : pos.toReal = (r : ℝ) := by rw [hslot, hre]
    rw [if_neg hrn'] at e2
    simp only [if_neg hrn']
    have he1 : e = 1 := by
      rw [hre] at e2
      split at e2 <;> split at e2 <;> omega
    obtain ⟨r1, r2⟩ := ofUsize_fp (L32 := L32) (n := r) (by omega)
    rw [rnd_of_isRep (isRep32_nat (by omega))] at r2
    obtain ⟨a1, a2⟩ := Fl.sub_val p1 r1 (by rw [hpr, r2, sub_self]; exact noOvf_zero)
    rw [hpr, r2, sub_self, rnd_zero] at a2
    obtain ⟨k1, k2⟩ := castTo_val (L := L) a1 (by rw [a2]; exact noOvf_zero)
    rw [a2, rnd_zero] at k2
    obtain ⟨o1, o2⟩ := Fl.sub_val (Fl.one_finite (L := L)) k1 (by rw [k2]; simpa using noOvf_one)
    rw [k2, Fl.one_toReal, sub_zero, rnd_of_isRep (isRep_one f)] at o2
    exact ⟨he1, k1, k2, o1, o2⟩

/-- Invariant behind C27 in floating point, for lines of at most 2^24 slots (growth included). -/
structure LinearDelay.FInv [Target] (s : LinearDelay (Fl L32) (Fl L)) : Prop where
  winv : s.WInv
  len : s.memory.length ≤ 2 ^ 24
  read : ∃ e, s.Eff e ∧ (2 ≤ s.delay.toReal → 2 ≤ e) ∧
    (s.delay.toReal = 1 → 2 ≤ e ∨ (e = 1 ∧ s.alpha.Finite ∧ s.alpha.toReal = 0 ∧ s.om_alpha.Finite ∧
      s.om_alpha.toReal = 1))

theorem LinearDelay.ReachableVia.finv [Target] {s : LinearDelay (Fl L32) (Fl L)}
    (h : LinearDelay.ReachableVia b (fun n => n ≤ 2 ^ 24) s) : s.FInv := by
  induction h with
  | new hm h hP =>
    rename_i d m s
    refine ⟨(LinearDelay.new_frame hm h).2.2.1, hP, ?_⟩
    obtain ⟨hmem, -⟩ := LinearDelay.new_frame hm h
    rw [new_eq_setDelay hm] at h
    have hm' := hm
    unfold Allocatable at hm'
    rw [hmem] at hP
    exact setDelay_far (b := b) ⟨by simp, by simpa using hm'⟩ (by simpa using hP) h
  | step hs ho h hP ih =>
    rename_i s s' op o
    obtain ⟨hi, hl, e, he, hfar, hone⟩ := ih
    have hw := hi.hw
    have hr := he.lt hw
    cases op with
    | process x =>
      simp only [LinearDelay.step, Res.bind_ok] at h
      obtain ⟨⟨s1, y⟩, h1, h⟩ := h
      cases h
      have hnx : LinearDelay.Next s s1 x y := by
        cases hd : s.do_next_out
        · obtain ⟨s2, hp, hnx⟩ := LinearDelay.process_cached (b := b) hi hr hd x
          rw [h1] at hp
          cases hp
          exact hnx
        · obtain ⟨s2, m0, m1, -, -, hp, hnx⟩ := LinearDelay.process_spec (b := b) hi he hd x
          rw [h1] at hp
          cases hp
          exact hnx
      refine ⟨hnx.winv, hP, e, hnx.eff e he, ?_⟩
      rw [hnx.delay, hnx.alpha, hnx.om_alpha]
      exact ⟨hfar, hone⟩
    | setDelay d =>
      simp only [LinearDelay.step, Res.bind_ok] at h
      obtain ⟨s1, h1, h⟩ := h
      cases h
      obtain ⟨hmem, hwp, -⟩ := LinearDelay.setDelay_frame h1
      exact ⟨⟨by rw [hmem, hwp]; exact hw, by rw [hmem]; exact hi.cap⟩, hP, setDelay_far hi hl h1⟩
    | setMaxDelay m =>
      simp only [LinearDelay.step, Res.bind_ok] at h
      obtain ⟨s1, h1, h⟩ := h
      cases h
      by_cases hc : m < s.memory.length
      · rw [LinearDelay.setMaxDelay_small hc] at h1
        cases h1
        exact ⟨hi, hl, e, he, hfar, hone⟩
      · have hm : Allocatable (Fl L) m := ho
        rw [LinearDelay.setMaxDelay_grow (by omega) ho] at h1
        cases h1
        have e1 := he.1
        have e2 := he.2
        refine ⟨⟨by simp only [List.length_append]; omega, ?_⟩, hP,
          if e ≤ s.write_ptr then e else e + (m + 1 - s.memory.length), ⟨?_, ?_⟩, ?_, ?_⟩
        · unfold Allocatable at hm
          simp only [List.length_append, List.length_replicate]
          rwa [show s.memory.length + (m + 1 - s.memory.length) = m + 1 by omega]
        · simp only [List.length_append, List.length_replicate]; split <;> omega
        · simp only [List.length_append, List.length_replicate]
          rw [e2]; split
          · rfl
          · rw [if_neg (by omega)]; omega
        · intro hd
          have := hfar hd
          split <;> omega
        · intro hd
          split
          · exact hone hd
          · left
            rcases hone hd with h | ⟨h, -⟩ <;> omega
    | nextOut =>
      simp only [LinearDelay.step, Res.bind_ok] at h
      obtain ⟨⟨s1, y⟩, h1, h⟩ := h
      cases h
      obtain rfl := LinearDelay.nextOut_frame h1
      exact ⟨⟨hi.hw, hi.cap⟩, hP, e, he, hfar, hone⟩
    | tapOut k =>
      simp only [LinearDelay.step, Res.bind_ok] at h
      obtain ⟨_, _, h⟩ := h
      cases h
      exact ⟨hi, hl, e, he, hfar, hone⟩
    | tapIn v k =>
      obtain ⟨m, h1, -, hlm⟩ := LinearDelay.tapIn_spec (b := b) hi (k := k) ho v
      simp only [LinearDelay.step, h1, Res.ok_bind] at h
      cases h
      exact ⟨⟨by simpa [hlm] using hi.hw, by simpa [hlm] using hi.cap⟩, hP, e,
        ⟨by simpa [hlm] using he.1, by simpa [hlm] using he.2⟩, hfar, hone⟩
    | addTo v k =>
      obtain ⟨m, y, -, h1, -, hlm⟩ := LinearDelay.addTo_spec (b := b) hi (k := k) ho v
      simp only [LinearDelay.step, h1, Res.ok_bind] at h
      cases h
      exact ⟨⟨by simpa [hlm] using hi.hw, by simpa [hlm] using hi.cap⟩, hP, e,
        ⟨by simpa [hlm] using he.1, by simpa [hlm] using he.2⟩, hfar, hone⟩
    | clear =>
      simp only [LinearDelay.step] at h
      cases h
      exact ⟨⟨by simpa [LinearDelay.clear] using hi.hw, by simpa [LinearDelay.clear] using hi.cap⟩, hP, e,
        ⟨by simpa [LinearDelay.clear] using he.1, by simpa [LinearDelay.clear] using he.2⟩, hfar, hone⟩

/-- **C27** in IEEE arithmetic, delay at least 2: on lines of at most 2^24 slots, calling `next_out` changes no later
output, bit for bit and whatever the samples are (NaN and infinities included). -/
theorem C27_nextOut_only_observes_ieee [Target] {s s' : LinearDelay (Fl L32) (Fl L)} {v : Fl L}
    (hs : LinearDelay.ReachableVia b (fun n => n ≤ 2 ^ 24) s) (hd : 2 ≤ s.getDelay.toReal)
    (h : s.nextOut b = .ok (s', v)) (x y : ℕ → Fl L) : Responds b s x y ↔ Responds b s' x y := by
  obtain ⟨hi, hl, e, he, hfar, -⟩ := hs.finv
  exact LinearDelay.responds_congr (LinearDelay.observe_far hi he (hfar hd) h) x y

theorem mem_histOf {T : Type} {mem : List T} {w : ℕ} {v : T} : v ∈ histOf mem w ↔ v ∈ mem := by
  unfold histOf
  rw [List.mem_append, List.mem_reverse, List.mem_reverse, ← List.mem_append, List.take_append_drop]

/-- **C27** in IEEE arithmetic, delay exactly 1: on lines of at most 2^24 slots holding finite samples and fed finite
samples, `next_out` changes no later output except possibly the sign of a zero in the first one. -/
theorem C27_nextOut_delay_one_ieee [Target] {s s' : LinearDelay (Fl L32) (Fl L)} {v : Fl L}
    (hs : LinearDelay.ReachableVia b (fun n => n ≤ 2 ^ 24) s) (hd1 : s.getDelay.toReal = 1) {h : List (Fl L)}
    (hst : s.Stores b h) (hh : ∀ u ∈ h, u.Finite) (hn : s.nextOut b = .ok (s', v)) {x : ℕ → Fl L}
    (hx : ∀ n, (x n).Finite) :
    ∃ y y', Responds b s x y ∧ Responds b s' x y' ∧ (∀ n, y (n + 1) = y' (n + 1)) ∧
      (y 0 = y' 0 ∨ Fl.eq (y 0) (y' 0) = true) := by
  obtain ⟨hi, hl, e, he, -, hone⟩ := hs.finv
  obtain rfl := hst.eq hi.stores
  have hr := he.lt hi.hw
  have hlen := hi.len_le
  have hmod := isizeMax_lt
  have hw := hi.hw
  -- streams of both states
  have hex : ∀ t : LinearDelay (Fl L32) (Fl L), t.WInv → t.Eff e → ∃ y, Responds b t x y := by
    intro t ht hte
    cases hdt : t.do_next_out
    · obtain ⟨t1, hp, hnx⟩ := LinearDelay.process_cached (b := b) ht (hte.lt ht.hw) hdt (x 0)
      have hr1 := LinearDelay.responds (b := b) hnx.winv (hnx.eff e hte) hnx.fresh (fun n => x (n + 1))
      obtain ⟨st, h0, hst⟩ := hr1
      refine ⟨fun n => n.casesOn t.next_out (fun k => (delayedBy e t1.hist (fun n => x (n + 1)) k *. t1.om_alpha) +.
        (delayedBy (older t1.memory.length e) t1.hist (fun n => x (n + 1)) k *. t1.alpha)),
        fun n => n.casesOn t st, rfl, fun n => ?_⟩
      cases n with
      | zero =>
        show Processor.process b t (x 0) = .ok (st 0, t.next_out)
        rw [h0]; exact hp
      | succ n => exact hst n
    · exact ⟨_, LinearDelay.responds (b := b) ht hte hdt x⟩
  obtain ⟨y, hy⟩ := hex s hi he
  have hs' := LinearDelay.nextOut_frame hn
  obtain ⟨y', hy'⟩ := hex s' (by rw [hs']; exact ⟨hi.hw, hi.cap⟩) (by rw [hs']; exact he)
  refine ⟨y, y', hy, hy', LinearDelay.observe_later hi he hn hy hy', ?_⟩
  rcases hone hd1 with h2 | ⟨h1, a1, a2, o1, o2⟩
  · left
    have := (LinearDelay.responds_congr (LinearDelay.observe_far hi he h2 hn) x y).mp hy
    exact congrFun (this.unique hy') 0
  · cases hd : s.do_next_out
    · left
      have h3 : s.nextOut b = .ok (s, s.next_out) := by unfold LinearDelay.nextOut; rw [if_neg (by simp [hd])]
      rw [hn] at h3
      cases h3
      exact congrFun (hy.unique hy') 0
    · right
      obtain ⟨m0, m1, g0, g1, hq⟩ := LinearDelay.nextOut_eq (b := b) hr hd (by omega)
      rw [hn] at hq
      cases hq
      obtain ⟨p0, p1, q0, q1, hq⟩ := LinearDelay.nextOut_eq (b := b) (s := s.pushed (x 0))
        (by simpa [LinearDelay.pushed] using hr) hd (by simp [LinearDelay.pushed]; omega)
      simp only [LinearDelay.pushed, List.length_set] at q0 q1 hq
      have e1 := he.1
      have e2 := he.2
      have hne0 : s.write_ptr ≠ s.read_ptr := by split at e2 <;> omega
      rw [List.getElem?_set_ne hne0, g0] at q0
      cases q0
      have hp := LinearDelay.process_eq (b := b) hi hr (x 0) ⟨_, hq⟩
      have hfin : ∀ {i : ℕ} {u : Fl L}, s.memory[i]? = some u → u.Finite := fun hu =>
        hh _ (mem_histOf.mpr (List.mem_of_getElem? hu))
      have f1 : p1.Finite := by
        rw [List.getElem?_set] at q1
        split at q1
        · cases q1; exact hx 0
        · exact hfin q1
      -- first outputs
      obtain ⟨st, h0, hst⟩ := hy
      obtain ⟨st', h0', hst'⟩ := hy'
      have k1 := hst 0
      rw [h0] at k1
      have k2 := hst' 0
      rw [h0'] at k2
      have y0 := (Prod.mk.inj (Except.ok.inj (k1.symm.trans hp))).2
      obtain ⟨s2, hpc, -⟩ := LinearDelay.process_cached (b := b)
        (s := { s with next_out := (m0 *. s.om_alpha) +. (m1 *. s.alpha), do_next_out := false }) ⟨hi.hw, hi.cap⟩ hr rfl (x 0)
      have y0' := (Prod.mk.inj (Except.ok.inj (k2.symm.trans hpc))).2
      rw [y0, y0']
      have fin : ∀ c : Fl L, c.Finite → ((m0 *. s.om_alpha) +. (c *. s.alpha)).Finite ∧
          ((m0 *. s.om_alpha) +. (c *. s.alpha)).toReal = m0.toReal := by
        intro c hc
        obtain ⟨p1, p2⟩ := Fl.mul_val (hfin g0) o1 (by rw [o2, mul_one]; exact Fl.noOvf_toReal m0)
        obtain ⟨q1, q2⟩ := Fl.mul_val hc a1 (by rw [a2, mul_zero]; exact noOvf_zero)
        rw [o2, mul_one, rnd_of_isRep (Fl.isRep_toReal m0)] at p2
        rw [a2, mul_zero, rnd_zero] at q2
        obtain ⟨r1, r2⟩ := Fl.add_val p1 q1 (by rw [p2, q2, add_zero]; exact Fl.noOvf_toReal m0)
        rw [p2, q2, add_zero, rnd_of_isRep (Fl.isRep_toReal m0)] at r2
        exact ⟨r1, r2⟩
      obtain ⟨v1, v2⟩ := fin p1 f1
      obtain ⟨w1, w2⟩ := fin m1 (hfin g1)
      exact (Fl.eq_iff v1 w1).mpr (v2.trans w2.symm)

/-- The smallest `f32` above 1. -/
theorem exists_next_one (L32 : Libm binary32) : ∃ d : Fl L32, d.Finite ∧ d.toReal = 1 + 2 ^ (-23 : ℤ) := by
  have hrep : IsRep binary32 (1 + 2 ^ (-23 : ℤ) : ℝ) := by
    have := isRep_of_le (f := binary32) (m := 2 ^ 23 + 1) (e := -23) (by norm_num [binary32]) (by decide)
    have e : (((2 ^ 23 + 1 : ℤ) : ℝ)) * 2 ^ (-23 : ℤ) = 1 + 2 ^ (-23 : ℤ) := by norm_num
    rwa [e] at this
  have := FP.ofReal_exact (f := binary32) (s := false) hrep (by
    rw [abs_of_pos (by positivity)]
    have : (1 + 2 ^ (-23 : ℤ) : ℝ) < 2 ^ (128 : ℤ) := by norm_num
    exact this)
  exact ⟨_, this⟩

/-- **C27** is false in `f32` just above 1. On a line of `2^k` slots (`3 ≤ k ≤ 24`) after one zero sample, set the delay
to the smallest `f32` above 1: without `next_out` the sample 1 gives the output `2^k`, after `next_out` it gives 0. -/
theorem C27_false_just_above_one [Target] (hf : 24 ≤ f.p) {k : ℕ} (hk3 : 3 ≤ k) (hk : k ≤ 24)
    (hm : Allocatable (Fl L) (2 ^ k - 1)) (d0 : Fl L32) {d : Fl L32} (hd : d.Finite) (hd1 : d.toReal = 1 + 2 ^ (-23 : ℤ)) :
    ∃ (s s1 s2 s3 t1 t2 : LinearDelay (Fl L32) (Fl L)) (y0 y v z : Fl L), LinearDelay.new b d0 (2 ^ k - 1) = .ok s ∧
      s.process b zero = .ok (s1, y0) ∧ s1.setDelay b d = .ok s2 ∧ s2.getDelay.toReal = 1 + 2 ^ (-23 : ℤ) ∧
      s2.process b one = .ok (t1, y) ∧ y.Finite ∧ y.toReal = 2 ^ k ∧
      s2.nextOut b = .ok (s3, v) ∧ s3.process b one = .ok (t2, z) ∧ z.Finite ∧ z.toReal = 0 := by
  have hm' := hm
  unfold Allocatable at hm'
  have hpk : 8 ≤ 2 ^ k := by
    calc 8 = 2 ^ 3 := rfl
      _ ≤ 2 ^ k := Nat.pow_le_pow_right (by norm_num) hk3
  have hpk24 : 2 ^ k ≤ 2 ^ 24 := Nat.pow_le_pow_right (by norm_num) hk
  obtain ⟨N, hN⟩ : ∃ N : ℕ, N = 2 ^ k := ⟨_, rfl⟩
  have hNr : (N : ℝ) = 2 ^ k := by rw [hN]; push_cast; rfl
  rw [← hN] at hm hm' hpk hpk24 ⊢
  rw [← hNr]
  have hq : (2 : ℝ) ^ (-23 : ℤ) ≤ 1 := by norm_num
  have hq0 : (0 : ℝ) < 2 ^ (-23 : ℤ) := by positivity
  -- the new line
  have hnew : ∃ s : LinearDelay (Fl L32) (Fl L), LinearDelay.new b d0 (N - 1) = .ok s := by
    rw [new_eq_setDelay hm]
    have hi0 : LinearDelay.WInv (D := Fl L32)
        { memory := List.replicate (N - 1 + 1) (zero : Fl L), output := zero, read_ptr := 0, write_ptr := 0, delay := zero,
          do_next_out := true, next_out := zero, alpha := zero, om_alpha := zero } := ⟨by simp, by simpa using hm'⟩
    rcases clipDelay_cases (clipDelay d0 (ofUsize (N - 1) : Fl L32)) (ofUsize_fp (L32 := L32) (n := N - 1) (by omega)).1
      (ofUsize_nonneg (by omega)) with ⟨h1, h2⟩ | ⟨h1, h2, h3⟩
    · obtain ⟨s2, h4, -⟩ := setDelay_nan_state (b := b) hi0 h1
      exact ⟨s2, h4⟩
    · rw [(ofUsize_fp (by omega)).2] at h3
      obtain ⟨pos, hpos, -⟩ := loop_fin (w := 0) (n := N) (by omega) (by omega) h1 h2 h3
      exact ⟨_, LinearDelay.setDelay_eq (b := b) (T := Fl L)
        (s := { memory := List.replicate (N - 1 + 1) (zero : Fl L), output := zero, read_ptr := 0, write_ptr := 0,
                delay := zero, do_next_out := true, next_out := zero, alpha := zero, om_alpha := zero })
        (d := clipDelay d0 (ofUsize (N - 1))) (pos := pos) (by simp)
        (by simpa [Nat.sub_add_cancel (show 1 ≤ N by omega)] using hpos)⟩
  obtain ⟨s, hnew⟩ := hnew
  obtain ⟨hmem, hw0, hi, hdn, -⟩ := LinearDelay.new_frame hm hnew
  have hlen : s.memory.length = N := by rw [hmem, List.length_replicate]; omega
  have hvia : LinearDelay.ReachableVia b (fun n => n ≤ 2 ^ 24) s := .new hm hnew (by rw [hlen]; exact hpk24)
  obtain ⟨-, -, e0, he0, -⟩ := hvia.finv
  have hh : s.hist = List.replicate N zero := by
    unfold LinearDelay.hist; rw [hmem, histOf_replicate]; congr 1; omega
  -- one zero sample
  obtain ⟨s1, z0, z1, -, -, hp1, hnx⟩ := LinearDelay.process_spec (b := b) hi he0 hdn zero
  have hi1 := hnx.winv
  have hh1 : s1.hist = List.replicate N zero := by
    rw [hnx.hist, hh, List.dropLast_replicate, ← List.replicate_succ]; congr 1; omega
  have hlen1 : s1.memory.length = N := hnx.len.trans hlen
  have hw1 : s1.write_ptr = 1 := by
    rw [hnx.wptr, hw0, hlen]; exact Nat.mod_eq_of_lt (by omega)
  -- the delay
  obtain ⟨m1, m2⟩ := ofUsize_fp (L32 := L32) (n := N - 1) (by omega)
  rw [rnd_of_isRep (isRep32_nat (by omega))] at m2
  have hN7 : (7 : ℝ) ≤ ((N - 1 : ℕ) : ℝ) := by exact_mod_cast (by omega)
  obtain ⟨c1, c2⟩ := clipDelay_fin hd m1 (by rw [m2]; linarith)
  rw [hd1, m2, min_eq_left (by linarith), max_eq_right (by linarith)] at c2
  obtain ⟨pos, hpos, p1, p2, -, -⟩ := loop_fin (w := 1) (n := N) (by omega) (by omega) c1
    (by rw [c2]; linarith) (by rw [c2, rnd_of_isRep (isRep32_nat (by omega))]; linarith)
  have hpN : pos.toReal = N := by
    rw [p2, c2]
    unfold posOf
    simp only
    have hx0 : rnd binary32 (rnd binary32 ((1 : ℕ) : ℝ) - (1 + 2 ^ (-23 : ℤ))) = - 2 ^ (-23 : ℤ) := by
      rw [Nat.cast_one, rnd_of_isRep (isRep_one _), show (1 : ℝ) - (1 + 2 ^ (-23 : ℤ)) = - 2 ^ (-23 : ℤ) by ring]
      exact rnd_of_isRep (isRep_two_zpow (by decide)).neg
    rw [hx0, if_pos (by linarith), rnd_of_isRep (isRep32_nat hpk24), hNr, neg_add_eq_sub]
    exact rnd32_below (by omega) hq0 (zpow_lt_zpow_right₀ (by norm_num) (by omega))
  have hu : DelayTime.toUsize (Fl L) pos = N :=
    toUsize_val p1 (by rw [hpN]; positivity) (by have := target; omega) hpN.ge (by rw [hpN]; linarith)
  have hsd := LinearDelay.setDelay_eq (b := b) (T := Fl L) (s := s1) (d := d) (pos := pos) (by omega)
    (by rw [hlen1, hw1]; exact hpos)
  simp only [hu] at hsd
  rw [if_pos hlen1.symm] at hsd
  obtain ⟨s2, hs2⟩ : ∃ s2, s1.setDelay b d = .ok s2 := ⟨_, hsd⟩
  rw [hs2] at hsd
  have hsd := Except.ok.inj hsd
  have hr2 : s2.read_ptr = 0 := by rw [hsd]
  have hal : s2.alpha = DelayTime.castTo (pos -. ofUsize 0) := by rw [hsd]
  have hom : s2.om_alpha = one -. DelayTime.castTo (pos -. ofUsize 0) := by rw [hsd]
  have hde : s2.getDelay = clipDelay d (ofUsize (N - 1)) := by rw [hsd]; unfold LinearDelay.getDelay; rw [hlen1]
  obtain ⟨hmem2, hwp2, -, hdn2, -⟩ := LinearDelay.setDelay_frame hs2
  have hi2 : s2.WInv := ⟨by rw [hmem2, hwp2]; exact hi1.hw, by rw [hmem2]; exact hi1.cap⟩
  have hd2 : s2.do_next_out = true := hdn2.trans hnx.fresh
  have hlen2 : s2.memory.length = N := by rw [hmem2]; exact hlen1
  have hw2 : s2.write_ptr = 1 := by rw [hwp2]; exact hw1
  have hh2 : s2.hist = List.replicate N zero := by unfold LinearDelay.hist; rw [hmem2, hwp2]; exact hh1
  have he2 : s2.Eff 1 := ⟨by omega, by rw [hr2, hw2]; rfl⟩
  -- the weights
  obtain ⟨r1, r2⟩ := ofUsize_fp (L32 := L32) (n := 0) (by norm_num)
  rw [Nat.cast_zero, rnd_zero] at r2
  obtain ⟨a1, a2⟩ := Fl.sub_val p1 r1 (by rw [hpN, r2, sub_zero, ← hpN]; exact Fl.noOvf_toReal pos)
  rw [hpN, r2, sub_zero, rnd_of_isRep (isRep32_nat hpk24)] at a2
  have hp24 : (2 : ℤ) ^ 24 ≤ 2 ^ f.p := pow_le_pow_right₀ (by norm_num) hf
  have hrepN : IsRep f (N : ℝ) := isRep_nat (hpk24.trans (by exact_mod_cast hp24))
  have hrepO : IsRep f (1 - (N : ℝ)) := by
    have := isRep_int (f := f) (n := 1 - (N : ℤ)) (by rw [abs_le]; constructor <;> omega)
    simpa using this
  have hlim : (N : ℝ) < f.lim := by
    have h24 : (N : ℝ) ≤ 2 ^ 24 := by exact_mod_cast hpk24
    refine h24.trans_lt ?_
    unfold Fmt.lim
    have : (2 : ℝ) ^ 24 = 2 ^ (24 : ℤ) := by norm_num
    rw [this]
    exact zpow_lt_zpow_right₀ (by norm_num) (by have := f.hemax; omega)
  have hN0 : (8 : ℝ) ≤ N := by exact_mod_cast hpk
  have hnoN : FP.NoOvf f (N : ℝ) := by
    unfold FP.NoOvf; rw [rnd_of_isRep hrepN, abs_of_nonneg (by positivity)]; exact hlim
  obtain ⟨u1, u2⟩ := castTo_val (L := L) a1 (by rw [a2]; exact hnoN)
  rw [a2, rnd_of_isRep hrepN, ← hal] at u2
  rw [← hal] at u1
  obtain ⟨o1, o2⟩ := Fl.sub_val (Fl.one_finite (L := L)) u1 (by
    rw [u2, Fl.one_toReal]; unfold FP.NoOvf; rw [rnd_of_isRep hrepO, abs_of_nonpos (by linarith)]; linarith)
  rw [hal, ← hom] at o1
  -- both ways of continuing
  have zo := Fl.mul_val (Fl.zero_finite (L := L)) o1 (by rw [Fl.zero_toReal, zero_mul]; exact noOvf_zero)
  rw [Fl.zero_toReal, zero_mul, rnd_zero] at zo
  have za := Fl.mul_val (Fl.zero_finite (L := L)) u1 (by rw [Fl.zero_toReal, zero_mul]; exact noOvf_zero)
  rw [Fl.zero_toReal, zero_mul, rnd_zero] at za
  have oa := Fl.mul_val (Fl.one_finite (L := L)) u1 (by rw [Fl.one_toReal, one_mul, u2]; exact hnoN)
  rw [Fl.one_toReal, one_mul, u2, rnd_of_isRep hrepN] at oa
  have yv := Fl.add_val zo.1 oa.1 (by rw [zo.2, oa.2, zero_add]; exact hnoN)
  rw [zo.2, oa.2, zero_add, rnd_of_isRep hrepN] at yv
  have vv := Fl.add_val zo.1 za.1 (by rw [zo.2, za.2, zero_add]; exact noOvf_zero)
  rw [zo.2, za.2, zero_add, rnd_zero] at vv
  obtain ⟨t1, x0, x1, g0, g1, hq1, -⟩ := LinearDelay.process_spec (b := b) hi2 he2 hd2 one
  have hx0 : x0 = zero := by
    rw [List.getElem?_cons_succ, hh2, List.dropLast_replicate, List.getElem?_replicate, if_pos (by omega)] at g0
    exact (Option.some.inj g0).symm
  have hx1 : x1 = one := by simpa [older] using g1.symm
  subst hx0 hx1
  obtain ⟨n0, n1, k0, k1, hno⟩ := LinearDelay.nextOut_eq (b := b) (s := s2) (by omega) hd2 (by
    rw [hlen2]; have := target; omega)
  have hz : ∀ {i : ℕ} {u : Fl L}, s2.memory[i]? = some u → u = zero := by
    intro i u hu
    have : u ∈ s2.hist := mem_histOf.mpr (List.mem_of_getElem? hu)
    rw [hh2] at this
    exact (List.mem_replicate.mp this).2
  obtain rfl := hz k0
  obtain rfl := hz k1
  obtain ⟨t2, hq2, -⟩ := LinearDelay.process_cached (b := b)
    (s := { s2 with next_out := (zero *. s2.om_alpha) +. (zero *. s2.alpha), do_next_out := false })
    ⟨hi2.hw, hi2.cap⟩ (by show s2.read_ptr < s2.memory.length; omega) rfl one
  exact ⟨s, s1, s2, _, t1, t2, _, _, _, _, hnew, hp1, hs2, by rw [hde]; exact c2, hq1, yv.1, yv.2, hno, hq2, vv.1, vv.2⟩

/-- Concretely: 4096 slots, the output is 4096 or 0 depending on a preceding `next_out`. -/
example [Target] (L32 L : Libm binary32) (b : Build) : ∃ (s2 s3 t1 t2 : LinearDelay (Fl L32) (Fl L)) (y v z : Fl L),
    s2.process b one = .ok (t1, y) ∧ y.toReal = 4096 ∧ s2.nextOut b = .ok (s3, v) ∧ s3.process b one = .ok (t2, z) ∧
      z.toReal = 0 := by
  obtain ⟨d, h1, h2⟩ := exists_next_one L32
  have hm : Allocatable (Fl L) (2 ^ 12 - 1) := by
    unfold Allocatable
    have : size (Fl L) = 4 := rfl
    rw [this]; have := target; omega
  obtain ⟨s, s1, s2, s3, t1, t2, y0, y, v, z, -, -, -, -, k1, -, k2, k3, k4, -, k5⟩ :=
    C27_false_just_above_one (b := b) (L := L) (by decide) (k := 12) (by norm_num) (by norm_num) hm d h1 h2
  exact ⟨s2, s3, t1, t2, y, v, z, k1, by rw [k2]; norm_num, k3, k4, k5⟩

/-- The hypotheses of the two positive theorems hold, e.g. on new lines with delay 2 and delay 1. -/
example [Target] (L32 L : Libm binary32) (b : Build) {k : ℕ} (hk : k ≤ 3) : ∃ s : LinearDelay (Fl L32) (Fl L),
    LinearDelay.ReachableVia b (fun n => n ≤ 2 ^ 24) s ∧ s.getDelay.toReal = k ∧
      s.Stores b (List.replicate 4 zero) ∧ ∃ s' v, s.nextOut b = .ok (s', v) := by
  have hm : Allocatable (Fl L) 3 := by
    unfold Allocatable
    have : size (Fl L) = 4 := rfl
    rw [this]; have := target; omega
  obtain ⟨-, s, -, hnew, -⟩ := C23_integer_delay_agrees (b := b) (L32 := L32) hm (by norm_num) hk
  obtain ⟨hmem, -, hi, hdn, -⟩ := LinearDelay.new_frame hm hnew
  have hlen : s.memory.length = 4 := by rw [hmem]; simp
  have hvia : LinearDelay.ReachableVia b (fun n => n ≤ 2 ^ 24) s := .new hm hnew (by rw [hlen]; norm_num)
  obtain ⟨-, -, e, he, -⟩ := hvia.finv
  obtain ⟨_, _, -, -, hno⟩ := LinearDelay.nextOut_eq (b := b) (he.lt hi.hw) hdn (by have := target; rw [hlen]; omega)
  refine ⟨s, hvia, ?_, ?_, _, _, hno⟩
  · obtain ⟨k1, k2⟩ := ofUsize_fp (L32 := L32) (n := k) (by omega)
    obtain ⟨m1, m2⟩ := ofUsize_fp (L32 := L32) (n := 3) (by norm_num)
    rw [rnd_of_isRep (isRep32_nat (by omega))] at k2 m2
    have hk' : (k : ℝ) ≤ 3 := by exact_mod_cast hk
    rw [new_eq_setDelay hm] at hnew
    show s.delay.toReal = k
    rw [setDelay_delay (by simp) hnew]
    simp only [List.length_replicate, Nat.add_sub_cancel]
    rw [clipDelay_idem _ m1 (by rw [m2]; norm_num), (clipDelay_fin k1 m1 (by rw [m2]; norm_num)).2, k2, m2]
    push_cast
    rw [min_eq_left hk', max_eq_right (by positivity)]
  · have := hi.stores (b := b)
    unfold LinearDelay.hist at this
    rwa [hmem, histOf_replicate] at this

end Rasp
