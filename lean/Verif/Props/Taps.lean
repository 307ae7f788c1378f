import Verif.Lemmas.Linear
import Verif.Props.Delay

/-!
# C13–C17: taps and maximum of both delay lines

For arbitrary number types (bit for bit) and both build profiles.
-/

namespace Rasp
open FloatOps

section lin
variable {D T : Type} [FloatOps D] [FloatOps T] [DelayTime D T] {b : Build}

/-! ## C13 -/

/-- **C13**, `Delay`: after any quiet history of a new line, tap `k` is the `k`-th most recent processed sample. -/
theorem C13_delay_tapOut_reads_history [Target] {d m : ℕ} (hm : Allocatable T m) {s s' : Delay T} {os : List (Obs T)}
    {ops : List (DelayOp T)} (hn : Delay.new b d m = .ok s) (hq : ∀ op ∈ ops, op.Quiet)
    (hr : s.run b ops = .ok (s', os)) {k : ℕ} (hk : k ≤ m) :
    s'.tapOut b k = .ok ((ops.filterMap DelayOp.sample?).reverse.getD k zero) := by
  have key : ∀ (ops : List (DelayOp T)) (s : Delay T) (os : List (Obs T)) (pre : List T), s.Inv →
      s.memory.length = m + 1 → (∀ k, k ≤ m → s.hist[k]? = some (pre.reverse.getD k zero)) →
      (∀ op ∈ ops, op.Quiet) → s.run b ops = .ok (s', os) → s'.Inv ∧ s'.memory.length = m + 1 ∧
      ∀ k, k ≤ m → s'.hist[k]? = some ((pre ++ ops.filterMap DelayOp.sample?).reverse.getD k zero) := by
    intro ops
    induction ops with
    | nil =>
      intro s os pre hi hl hh _ hr
      simp only [Delay.run] at hr
      cases hr
      exact ⟨hi, hl, by simpa using hh⟩
    | cons op ops ih =>
      intro s os pre hi hl hh hq hr
      simp only [Delay.run, Res.bind_ok] at hr
      obtain ⟨⟨s1, o⟩, h1, ⟨s2, os2⟩, h2, h3⟩ := hr
      cases h3
      have hq' : ∀ op ∈ ops, op.Quiet := fun o ho => hq o (by simp [ho])
      have hq1 := hq op (by simp)
      cases op with
      | process x =>
        obtain ⟨y, -, hp⟩ := Delay.process_eq (b := b) hi x
        have hw := hi.hw
        simp only [Delay.step, hp, Res.ok_bind] at h1
        cases h1
        have hpos : 0 < s.memory.length := by omega
        have hhist : histOf (s.memory.set s.write_ptr x) ((s.write_ptr + 1) % s.memory.length)
            = x :: s.hist.dropLast := histOf_push hw x
        have := ih _ _ (pre ++ [x]) ⟨by simpa using Nat.mod_lt _ hpos, by simpa using Nat.mod_lt _ hpos,
          by simpa using hi.cap⟩ (by simpa using hl) ?_ hq' h2
        · simpa [DelayOp.sample?] using this
        · intro k hk
          show (histOf (s.memory.set s.write_ptr x) ((s.write_ptr + 1) % s.memory.length))[k]? = _
          rw [hhist]
          cases k with
          | zero => simp
          | succ k =>
            rw [List.getElem?_cons_succ, List.getElem?_dropLast, if_pos (by simp; omega), hh k (by omega)]
            simp
      | setDelay d =>
        obtain ⟨s3, hp, hi3, -, -, hm3, hw3, -⟩ := Delay.setDelay_spec (b := b) hi.hw hi.cap d
        simp only [Delay.step, hp, Res.ok_bind] at h1
        cases h1
        exact ih _ _ pre hi3 (by rw [hm3]; exact hl)
          (by unfold Delay.hist; rw [hm3, hw3]; exact hh) hq' h2
      | getDelay =>
        simp only [Delay.step] at h1
        cases h1
        exact ih _ _ pre hi hl hh hq' h2
      | lastOut =>
        simp only [Delay.step] at h1
        cases h1
        exact ih _ _ pre hi hl hh hq' h2
      | getMaxDelay =>
        simp only [Delay.step, Res.bind_ok] at h1
        obtain ⟨_, _, h1⟩ := h1
        cases h1
        exact ih _ _ pre hi hl hh hq' h2
      | nextOut =>
        simp only [Delay.step, Res.bind_ok] at h1
        obtain ⟨_, _, h1⟩ := h1
        cases h1
        exact ih _ _ pre hi hl hh hq' h2
      | tapOut k =>
        simp only [Delay.step, Res.bind_ok] at h1
        obtain ⟨_, _, h1⟩ := h1
        cases h1
        exact ih _ _ pre hi hl hh hq' h2
      | tapIn v k => exact hq1.elim
      | addTo v k => exact hq1.elim
      | clear => exact hq1.elim
      | setMaxDelay k => exact hq1.elim
  obtain ⟨s0, hn', hi, -, -, hmem, -⟩ := Delay.new_spec (b := b) (d := d) hm
  rw [hn] at hn'
  cases hn'
  obtain ⟨hi', hl', hh'⟩ := key ops s os [] hi (by rw [hmem]; simp)
    (fun k hk => by unfold Delay.hist; rw [hmem, histOf_replicate, List.getElem?_replicate, if_pos (by omega)]; simp)
    hq hr
  obtain ⟨y, h1, h2⟩ := Delay.tapOut_spec (b := b) hi' (k := k) (by omega)
  rw [hh' k hk] at h2
  rw [h1, ← Option.some.inj h2]; simp

/-- **C13**, `LinearDelay`: the same. -/
theorem C13_linearDelay_tapOut_reads_history [Target] {d : D} {m : ℕ} (hm : Allocatable T m) {s s' : LinearDelay D T}
    {os : List (Obs T)} {ops : List (LinOp D T)} (hn : LinearDelay.new b d m = .ok s) (hq : ∀ op ∈ ops, op.Quiet)
    (hr : s.run b ops = .ok (s', os)) {k : ℕ} (hk : k ≤ m) :
    s'.tapOut b k = .ok ((ops.filterMap LinOp.sample?).reverse.getD k zero) := by
  have key : ∀ (ops : List (LinOp D T)) (s : LinearDelay D T) (os : List (Obs T)) (pre : List T), s.WInv →
      s.memory.length = m + 1 → (∀ k, k ≤ m → s.hist[k]? = some (pre.reverse.getD k zero)) →
      (∀ op ∈ ops, op.Quiet) → s.run b ops = .ok (s', os) → s'.WInv ∧ s'.memory.length = m + 1 ∧
      ∀ k, k ≤ m → s'.hist[k]? = some ((pre ++ ops.filterMap LinOp.sample?).reverse.getD k zero) := by
    intro ops
    induction ops with
    | nil =>
      intro s os pre hi hl hh _ hr
      simp only [LinearDelay.run] at hr
      cases hr
      exact ⟨hi, hl, by simpa using hh⟩
    | cons op ops ih =>
      intro s os pre hi hl hh hq hr
      simp only [LinearDelay.run, Res.bind_ok] at hr
      obtain ⟨⟨s1, o⟩, h1, ⟨s2, os2⟩, h2, h3⟩ := hr
      cases h3
      have hq' : ∀ op ∈ ops, op.Quiet := fun o ho => hq o (by simp [ho])
      have hq1 := hq op (by simp)
      cases op with
      | process x =>
        simp only [LinearDelay.step, Res.bind_ok] at h1
        obtain ⟨⟨s3, y⟩, hp, h1⟩ := h1
        cases h1
        obtain ⟨hhist, hi3, hl3, -⟩ := LinearDelay.process_frame hi hp
        have := ih _ _ (pre ++ [x]) hi3 (by omega) ?_ hq' h2
        · simpa [LinOp.sample?] using this
        · intro k hk
          rw [hhist]
          cases k with
          | zero => simp
          | succ k =>
            rw [List.getElem?_cons_succ, List.getElem?_dropLast, if_pos (by simp; omega), hh k (by omega)]
            simp
      | setDelay d =>
        simp only [LinearDelay.step, Res.bind_ok] at h1
        obtain ⟨s3, hp, h1⟩ := h1
        cases h1
        obtain ⟨hm3, hw3, -⟩ := LinearDelay.setDelay_frame hp
        exact ih _ _ pre ⟨by rw [hm3, hw3]; exact hi.hw, by rw [hm3]; exact hi.cap⟩
          (by rw [hm3]; exact hl) (by unfold LinearDelay.hist; rw [hm3, hw3]; exact hh) hq' h2
      | nextOut =>
        simp only [LinearDelay.step, Res.bind_ok] at h1
        obtain ⟨⟨s3, y⟩, hp, h1⟩ := h1
        cases h1
        obtain rfl := LinearDelay.nextOut_frame hp
        refine ih _ _ pre ⟨?_, ?_⟩ ?_ ?_ hq' h2
        exacts [hi.hw, hi.cap, hl, hh]
      | tapOut k =>
        simp only [LinearDelay.step, Res.bind_ok] at h1
        obtain ⟨_, _, h1⟩ := h1
        cases h1
        exact ih _ _ pre hi hl hh hq' h2
      | tapIn v k => exact hq1.elim
      | addTo v k => exact hq1.elim
      | clear => exact hq1.elim
      | setMaxDelay k => exact hq1.elim
  obtain ⟨hmem, -, hi, -⟩ := LinearDelay.new_frame hm hn
  obtain ⟨hi', hl', hh'⟩ := key ops s os [] hi (by rw [hmem]; simp)
    (fun k hk => by
      unfold LinearDelay.hist; rw [hmem, histOf_replicate, List.getElem?_replicate, if_pos (by omega)]; simp)
    hq hr
  obtain ⟨y, h1, h2⟩ := LinearDelay.tapOut_spec (b := b) hi' (k := k) (by omega)
  rw [hh' k hk] at h2
  rw [h1, ← Option.some.inj h2]; simp

/-- Non-vacuity: a quiet history and the samples it processes. -/
example : (∀ op ∈ ([.process 1, .setDelay 7, .process 2, .nextOut] : List (DelayOp ℝ)), op.Quiet) ∧
    ([.process 1, .setDelay 7, .process 2, .nextOut] : List (DelayOp ℝ)).filterMap DelayOp.sample? = [1, 2] := by
  exact ⟨by simp [DelayOp.Quiet], rfl⟩

/-! ## C14, C15 -/

theorem uSub_one_eq [Target] {n m : ℕ} (hn : 0 < n) (h : uSub b n 1 = .ok m) : n = m + 1 := by
  rw [uSub_ok (by omega)] at h
  have := Except.ok.inj h
  omega

/-- **C14**, `Delay`. -/
theorem C14_delay_tapIn [Target] {s : Delay T} (hs : Delay.Reachable b s) {mx k : ℕ} (hmx : s.getMaxDelay b = .ok mx)
    (hk : k ≤ mx) (v : T) :
    ∃ s', s.tapIn b v k = .ok s' ∧ s'.tapOut b k = .ok v ∧
      (∀ j, j ≤ mx → j ≠ k → s'.tapOut b j = s.tapOut b j) ∧
      s'.getDelay = s.getDelay ∧ s'.lastOut = s.lastOut ∧ s'.getMaxDelay b = s.getMaxDelay b := by
  obtain ⟨hi, -⟩ := hs.inv
  have hmx := uSub_one_eq (by have := hi.hw; omega) hmx
  have hk : k < s.memory.length := by omega
  obtain ⟨s', h1, hi', hh, hd, ho, -, -, hl⟩ := Delay.tapIn_spec (b := b) hi hk v
  refine ⟨s', h1, ?_, fun j hj' hjk => ?_, hd, ho, by unfold Delay.getMaxDelay; rw [hl]⟩
  · obtain ⟨y, h2, h3⟩ := Delay.tapOut_spec (b := b) hi' (k := k) (by omega)
    rw [hh, List.getElem?_set_self (by simpa using hk)] at h3
    cases h3; exact h2
  · have hj : j < s.memory.length := by omega
    obtain ⟨y, h2, h3⟩ := Delay.tapOut_spec (b := b) hi' (k := j) (by omega)
    obtain ⟨z, h4, h5⟩ := Delay.tapOut_spec (b := b) hi hj
    rw [hh, List.getElem?_set_ne hjk.symm, h5] at h3
    cases h3
    rw [h2, h4]

/-- **C14**, `LinearDelay`. -/
theorem C14_linearDelay_tapIn [Target] {s : LinearDelay D T} (hs : LinearDelay.Reachable b s) {mx k : ℕ}
    (hmx : s.getMaxDelay b = .ok mx) (hk : k ≤ mx) (v : T) :
    ∃ s', s.tapIn b v k = .ok s' ∧ s'.tapOut b k = .ok v ∧
      (∀ j, j ≤ mx → j ≠ k → s'.tapOut b j = s.tapOut b j) ∧
      s'.getDelay = s.getDelay ∧ s'.lastOut = s.lastOut ∧ s'.getMaxDelay b = s.getMaxDelay b := by
  have hi := hs.winv
  have hmx := uSub_one_eq (by have := hi.hw; omega) hmx
  have hk : k < s.memory.length := by omega
  obtain ⟨m, h1, hh, hl⟩ := LinearDelay.tapIn_spec (b := b) hi hk v
  have hi' : LinearDelay.WInv { s with memory := m } := ⟨by simpa [hl] using hi.hw, by simpa [hl] using hi.cap⟩
  have hh' : LinearDelay.hist { s with memory := m } = s.hist.set k v := hh
  refine ⟨_, h1, ?_, fun j hj' hjk => ?_, rfl, rfl, by simp only [LinearDelay.getMaxDelay, hl]⟩
  · obtain ⟨y, h2, h3⟩ := LinearDelay.tapOut_spec (b := b) hi' (k := k) (by simpa [hl] using hk)
    rw [hh', List.getElem?_set_self (by simpa using hk)] at h3
    cases h3; exact h2
  · have hj : j < s.memory.length := by omega
    obtain ⟨y, h2, h3⟩ := LinearDelay.tapOut_spec (b := b) hi' (k := j) (by simpa [hl] using hj)
    obtain ⟨z, h4, h5⟩ := LinearDelay.tapOut_spec (b := b) hi hj
    rw [hh', List.getElem?_set_ne hjk.symm, h5] at h3
    cases h3
    rw [h2, h4]

/-- **C15**, `Delay`. -/
theorem C15_delay_addTo [Target] {s : Delay T} (hs : Delay.Reachable b s) {mx k : ℕ} (hmx : s.getMaxDelay b = .ok mx)
    (hk : k ≤ mx) (v : T) :
    ∃ s' old, s.tapOut b k = .ok old ∧ s.addTo b v k = .ok (s', old +. v) ∧ s'.tapOut b k = .ok (old +. v) ∧
      (∀ j, j ≤ mx → j ≠ k → s'.tapOut b j = s.tapOut b j) ∧
      s'.getDelay = s.getDelay ∧ s'.lastOut = s.lastOut ∧ s'.getMaxDelay b = s.getMaxDelay b := by
  obtain ⟨hi, -⟩ := hs.inv
  have hmx := uSub_one_eq (by have := hi.hw; omega) hmx
  have hk : k < s.memory.length := by omega
  obtain ⟨s', old, hold, h1, hi', hh, hd, ho, -, -, hl⟩ := Delay.addTo_spec (b := b) hi hk v
  refine ⟨s', old, ?_, h1, ?_, fun j hj' hjk => ?_, hd, ho, by unfold Delay.getMaxDelay; rw [hl]⟩
  · obtain ⟨y, h2, h3⟩ := Delay.tapOut_spec (b := b) hi hk
    rw [hold] at h3
    cases h3; exact h2
  · obtain ⟨y, h2, h3⟩ := Delay.tapOut_spec (b := b) hi' (k := k) (by omega)
    rw [hh, List.getElem?_set_self (by simpa using hk)] at h3
    cases h3; exact h2
  · have hj : j < s.memory.length := by omega
    obtain ⟨y, h2, h3⟩ := Delay.tapOut_spec (b := b) hi' (k := j) (by omega)
    obtain ⟨z, h4, h5⟩ := Delay.tapOut_spec (b := b) hi hj
    rw [hh, List.getElem?_set_ne hjk.symm, h5] at h3
    cases h3
    rw [h2, h4]

/-- **C15**, `LinearDelay`. -/
theorem C15_linearDelay_addTo [Target] {s : LinearDelay D T} (hs : LinearDelay.Reachable b s) {mx k : ℕ}
    (hmx : s.getMaxDelay b = .ok mx) (hk : k ≤ mx) (v : T) :
    ∃ s' old, s.tapOut b k = .ok old ∧ s.addTo b v k = .ok (s', old +. v) ∧ s'.tapOut b k = .ok (old +. v) ∧
      (∀ j, j ≤ mx → j ≠ k → s'.tapOut b j = s.tapOut b j) ∧
      s'.getDelay = s.getDelay ∧ s'.lastOut = s.lastOut ∧ s'.getMaxDelay b = s.getMaxDelay b := by
  have hi := hs.winv
  have hmx := uSub_one_eq (by have := hi.hw; omega) hmx
  have hk : k < s.memory.length := by omega
  obtain ⟨m, old, hold, h1, hh, hl⟩ := LinearDelay.addTo_spec (b := b) hi hk v
  have hi' : LinearDelay.WInv { s with memory := m } := ⟨by simpa [hl] using hi.hw, by simpa [hl] using hi.cap⟩
  have hh' : LinearDelay.hist { s with memory := m } = s.hist.set k (old +. v) := hh
  refine ⟨_, old, ?_, h1, ?_, fun j hj' hjk => ?_, rfl, rfl, by simp only [LinearDelay.getMaxDelay, hl]⟩
  · obtain ⟨y, h2, h3⟩ := LinearDelay.tapOut_spec (b := b) hi hk
    rw [hold] at h3
    cases h3; exact h2
  · obtain ⟨y, h2, h3⟩ := LinearDelay.tapOut_spec (b := b) hi' (k := k) (by simpa [hl] using hk)
    rw [hh', List.getElem?_set_self (by simpa using hk)] at h3
    cases h3; exact h2
  · have hj : j < s.memory.length := by omega
    obtain ⟨y, h2, h3⟩ := LinearDelay.tapOut_spec (b := b) hi' (k := j) (by simpa [hl] using hj)
    obtain ⟨z, h4, h5⟩ := LinearDelay.tapOut_spec (b := b) hi hj
    rw [hh', List.getElem?_set_ne hjk.symm, h5] at h3
    cases h3
    rw [h2, h4]

/-- Non-vacuity: on a new line of maximum 3 the taps 0 to 3 are in range. -/
example [Target] : ∃ s : Delay ℝ, Delay.Reachable b s ∧ s.getMaxDelay b = .ok 3 := by
  have hm : Allocatable ℝ 3 := by show (3 + 1) * 8 ≤ isizeMax; have := target; omega
  obtain ⟨s, h, hi, -, -, hmem, -⟩ := Delay.new_spec (b := b) (d := 1) hm
  exact ⟨s, .new hm h, by unfold Delay.getMaxDelay; rw [hmem, List.length_replicate, uSub_ok (by omega)]⟩

/-! ## C16 -/

/-- **C16.** Property as a user expects it: every `tap_delay` beyond `get_max_delay` panics. That is false
(`C16_rejection_false`); this is the exact behaviour of all three tap methods of both lines, for a line of `n` slots with
write position `w`, in debug and release builds. `4 ≤ size T` holds for `f32` and `f64`. -/
theorem C16_tap_out_of_range [Target] (hsz : 4 ≤ size T) {k : ℕ} (hk2 : k < usizeMod) :
    (∀ s : Delay T, Delay.Reachable b s → s.memory.length ≤ k →
      let n := s.memory.length
      let w := s.write_ptr
      if k < n + w then
        s.tapOut b k = s.tapOut b (k - n) ∧ ∀ v, s.tapIn b v k = s.tapIn b v (k - n) ∧ s.addTo b v k = s.addTo b v (k - n)
      else if usizeMod - (n - w) ≤ k then
        s.tapOut b k = s.tapOut b (n + k - usizeMod) ∧
        ∀ v, s.tapIn b v k = s.tapIn b v (n + k - usizeMod) ∧ s.addTo b v k = s.addTo b v (n + k - usizeMod)
      else s.tapOut b k = .error .panic ∧ ∀ v, s.tapIn b v k = .error .panic ∧ s.addTo b v k = .error .panic) ∧
    (∀ s : LinearDelay D T, LinearDelay.Reachable b s → s.memory.length ≤ k →
      let n := s.memory.length
      let w := s.write_ptr
      if k < n + w then
        s.tapOut b k = s.tapOut b (k - n) ∧ ∀ v, s.tapIn b v k = s.tapIn b v (k - n) ∧ s.addTo b v k = s.addTo b v (k - n)
      else if usizeMod - (n - w) ≤ k then
        s.tapOut b k = s.tapOut b (n + k - usizeMod) ∧
        ∀ v, s.tapIn b v k = s.tapIn b v (n + k - usizeMod) ∧ s.addTo b v k = s.addTo b v (n + k - usizeMod)
      else s.tapOut b k = .error .panic ∧ ∀ v, s.tapIn b v k = .error .panic ∧ s.addTo b v k = .error .panic) := by
  have key : ∀ (n w : ℕ), w < n → n * size T ≤ isizeMax → n ≤ k →
      if k < n + w then tapIndex b w k n = tapIndex b w (k - n) n
      else if usizeMod - (n - w) ≤ k then tapIndex b w k n = tapIndex b w (n + k - usizeMod) n
      else tapIndex b w k n = .error .panic ∨ ∃ i, n ≤ i ∧ tapIndex b w k n = .ok i := by
    intro n w hw cap hk
    have h4 : 4 * n ≤ isizeMax := by
      refine le_trans ?_ cap
      rw [Nat.mul_comm]; exact Nat.mul_le_mul_left _ hsz
    have ht := target
    split
    · next h1 => rw [tapIndex_alias hw hk h1 h4, tapIndex_ok hw (by omega) (by omega)]
    split
    · next h1 h2 => rw [tapIndex_wrap hw h2 hk2 h4, tapIndex_ok hw (by omega) (by omega)]
    · next h1 h2 => exact tapIndex_reject (b := b) hw (by omega) (by omega : k < usizeMod - (n - w)) h4
  constructor
  · intro s hs hk
    have h := key s.memory.length s.write_ptr hs.inv.1.hw hs.inv.1.cap hk
    simp only
    split at h
    · next h1 => rw [if_pos h1]; simp only [Delay.tapOut, Delay.tapIn, Delay.addTo, h]; simp
    split at h
    · next h1 h2 => rw [if_neg h1, if_pos h2]; simp only [Delay.tapOut, Delay.tapIn, Delay.addTo, h]; simp
    · next h1 h2 =>
      rw [if_neg h1, if_neg h2]
      simp only [Delay.tapOut, Delay.tapIn, Delay.addTo]
      rcases h with h | ⟨i, hi, h⟩
      · simp only [h]; exact ⟨rfl, fun _ => ⟨rfl, rfl⟩⟩
      · simp only [h, Res.ok_bind, idx_panic hi, idxSet_panic hi]; exact ⟨trivial, fun _ => ⟨rfl, rfl⟩⟩
  · intro s hs hk
    have h := key s.memory.length s.write_ptr hs.winv.hw hs.winv.cap hk
    simp only
    split at h
    · next h1 => rw [if_pos h1]; simp only [LinearDelay.tapOut, LinearDelay.tapIn, LinearDelay.addTo, h]; simp
    split at h
    · next h1 h2 =>
      rw [if_neg h1, if_pos h2]; simp only [LinearDelay.tapOut, LinearDelay.tapIn, LinearDelay.addTo, h]; simp
    · next h1 h2 =>
      rw [if_neg h1, if_neg h2]
      simp only [LinearDelay.tapOut, LinearDelay.tapIn, LinearDelay.addTo]
      rcases h with h | ⟨i, hi, h⟩
      · simp only [h]; exact ⟨rfl, fun _ => ⟨rfl, rfl⟩⟩
      · simp only [h, Res.ok_bind, idx_panic hi, idxSet_panic hi]; exact ⟨trivial, fun _ => ⟨rfl, rfl⟩⟩

/-- **C16 is false as expected by a user**: on a line of maximum 1, after one sample, `tap_out(2)` is beyond
`get_max_delay` and silently returns that sample. -/
theorem C16_rejection_false [t : Target] : ∃ s : Delay ℝ, Delay.Reachable ⟨true⟩ s ∧ s.getMaxDelay ⟨true⟩ = .ok 1 ∧
    s.tapOut ⟨true⟩ 2 = .ok 5 := by
  have hm : Allocatable ℝ 1 := by show (1 + 1) * 8 ≤ isizeMax; have := target; omega
  have hr : Delay.Reachable ⟨true⟩
      { memory := [5, (0 : ℝ)], output := 5, read_ptr := 1, write_ptr := 1, delay := 0 } := by
    refine .step (s := { memory := [(0 : ℝ), 0], output := 0, read_ptr := 0, write_ptr := 0, delay := 0 })
      (op := .process 5) (o := .sample 5) (.new (d := 0) (m := 1) hm ?_) trivial ?_
    · rcases t with ⟨_ | _⟩ <;>
        simp [Delay.new, uAdd, usizeMod, vecNew, Delay.setDelay, uSub, isizeMax, isizeMod, usizeBits, FloatOps.size, List.replicate]
    · rcases t with ⟨_ | _⟩ <;> simp [Delay.step, Delay.process, idxSet, uAdd, usizeMod, usizeBits, uRem, idx]
  refine ⟨_, hr, rfl, ?_⟩
  have := (C16_tap_out_of_range (D := ℝ) (T := ℝ) (b := ⟨true⟩) (show 4 ≤ 8 by omega) (k := 2) (by have := target; omega)).1 _ hr
    (by simp)
  simp only [List.length_cons, List.length_nil] at this
  rw [if_pos (by omega)] at this
  rw [this.1]
  rcases t with ⟨_ | _⟩ <;>
    simp [Delay.tapOut, tapIndex, asIsize, wrapI, iSub, iAdd, iCheck, asUsize, idx, usizeMod, isizeMod, usizeBits]

/-! ## C17 -/

/-- **C17**, `Delay`. -/
theorem C17_delay_setMaxDelay [Target] {s : Delay T} (hs : Delay.Reachable b s) {m : ℕ} (hm : Allocatable T m) :
    ∃ s' mx, s.getMaxDelay b = .ok mx ∧ s.setMaxDelay b m = .ok s' ∧ s'.getMaxDelay b = .ok (max m mx) ∧
      s'.getDelay = s.getDelay ∧ s'.lastOut = s.lastOut ∧ (m ≤ mx → s' = s) := by
  obtain ⟨hi, -⟩ := hs.inv
  have hw := hi.hw
  by_cases hc : m < s.memory.length
  · refine ⟨s, s.memory.length - 1, uSub_ok (by omega), Delay.setMaxDelay_small hc, ?_, rfl, rfl, fun _ => rfl⟩
    rw [max_eq_right (by omega)]; exact uSub_ok (by omega)
  · refine ⟨_, s.memory.length - 1, uSub_ok (by omega), Delay.setMaxDelay_grow (by omega) hm, ?_, rfl, rfl,
      fun h => by omega⟩
    simp only [Delay.getMaxDelay, List.length_append, List.length_replicate]
    rw [uSub_ok (by omega)]
    congr 1; omega

/-- **C17**, `LinearDelay`. -/
theorem C17_linearDelay_setMaxDelay [Target] {s : LinearDelay D T} (hs : LinearDelay.Reachable b s) {m : ℕ}
    (hm : Allocatable T m) :
    ∃ s' mx, s.getMaxDelay b = .ok mx ∧ s.setMaxDelay b m = .ok s' ∧ s'.getMaxDelay b = .ok (max m mx) ∧
      s'.getDelay = s.getDelay ∧ s'.lastOut = s.lastOut ∧ (m ≤ mx → s' = s) := by
  have hw := hs.winv.hw
  by_cases hc : m < s.memory.length
  · refine ⟨s, s.memory.length - 1, uSub_ok (by omega), LinearDelay.setMaxDelay_small hc, ?_, rfl, rfl, fun _ => rfl⟩
    rw [max_eq_right (by omega)]; exact uSub_ok (by omega)
  · refine ⟨_, s.memory.length - 1, uSub_ok (by omega), LinearDelay.setMaxDelay_grow (by omega) hm, ?_, rfl, rfl,
      fun h => by omega⟩
    simp only [LinearDelay.getMaxDelay, List.length_append, List.length_replicate]
    rw [uSub_ok (by omega)]
    congr 1; omega

end lin

end Rasp
