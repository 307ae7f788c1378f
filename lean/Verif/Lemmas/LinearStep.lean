import Verif.Lemmas.Linear
import Verif.Lemmas.Delay

/-! # One `process` call of a `LinearDelay`, for arbitrary number types -/

namespace Rasp
open FloatOps

theorem whileLoop_zero {α : Type} {cond : α → Bool} {body : α → α} {x : α} (h : cond x = false) :
    whileLoop cond body x = .ok x := by
  have hex : ∃ n : ℕ, cond (body^[n] x) = false := ⟨0, h⟩
  unfold whileLoop
  rw [dif_pos hex, (Nat.find_eq_zero hex).mpr h]
  rfl

theorem whileLoop_one {α : Type} {cond : α → Bool} {body : α → α} {x : α} (h0 : cond x = true)
    (h : cond (body x) = false) : whileLoop cond body x = .ok (body x) := by
  have hex : ∃ n : ℕ, cond (body^[n] x) = false := ⟨1, h⟩
  have hf : Nat.find hex = 1 := by
    rw [Nat.find_eq_iff]
    refine ⟨h, fun n hn => ?_⟩
    obtain rfl : n = 0 := by omega
    simp [h0]
  unfold whileLoop
  rw [dif_pos hex, hf]
  rfl

variable {D T : Type} [FloatOps D] [FloatOps T] [DelayTime D T] {b : Build}

/-- The read position is `e` samples behind the write position. -/
def LinearDelay.Eff (s : LinearDelay D T) (e : ℕ) : Prop :=
  e < s.memory.length ∧
    s.read_ptr = if e ≤ s.write_ptr then s.write_ptr - e else s.memory.length + s.write_ptr - e

omit [FloatOps D] [FloatOps T] [DelayTime D T] in
theorem LinearDelay.eff_of_lt {s : LinearDelay D T} (hw : s.write_ptr < s.memory.length)
    (hr : s.read_ptr < s.memory.length) : ∃ e, s.Eff e := by
  by_cases h : s.read_ptr ≤ s.write_ptr
  · refine ⟨s.write_ptr - s.read_ptr, by omega, ?_⟩
    rw [if_pos (by omega)]; omega
  · refine ⟨s.memory.length + s.write_ptr - s.read_ptr, by omega, ?_⟩
    rw [if_neg (by omega)]; omega

omit [FloatOps D] [FloatOps T] [DelayTime D T] in
theorem LinearDelay.Eff.lt {s : LinearDelay D T} {e : ℕ} (hw : s.write_ptr < s.memory.length) (h : s.Eff e) :
    s.read_ptr < s.memory.length := by
  have h1 := h.1
  have h2 := h.2
  rw [h2]; split <;> omega

/-- The state after writing `x` and advancing the write position. -/
def LinearDelay.pushed (s : LinearDelay D T) (x : T) : LinearDelay D T :=
  { s with
    memory := s.memory.set s.write_ptr x
    write_ptr := (s.write_ptr + 1) % s.memory.length }

/-- The state after `process` returned `y`. -/
def LinearDelay.stepped (s : LinearDelay D T) (x y : T) : LinearDelay D T :=
  { s.pushed x with
    output := y
    next_out := y
    do_next_out := true
    read_ptr := (s.read_ptr + 1) % s.memory.length }

/-- Second index read by the interpolation when the first is `e`. -/
def older (n e : ℕ) : ℕ := if e = 0 then n - 1 else e - 1

omit [FloatOps D] [DelayTime D T] in
/-- `next_out` without a cached value. -/
theorem LinearDelay.nextOut_eq [Target] {s : LinearDelay D T} (hr : s.read_ptr < s.memory.length) (hd : s.do_next_out = true)
    (hl : s.memory.length < usizeMod) :
    ∃ m0 m1, s.memory[s.read_ptr]? = some m0 ∧ s.memory[(s.read_ptr + 1) % s.memory.length]? = some m1 ∧
      s.nextOut b = .ok ({ s with next_out := (m0 *. s.om_alpha) +. (m1 *. s.alpha), do_next_out := false },
        (m0 *. s.om_alpha) +. (m1 *. s.alpha)) := by
  have h0 : 0 < s.memory.length := by omega
  have hm : (s.read_ptr + 1) % s.memory.length < s.memory.length := Nat.mod_lt _ h0
  refine ⟨_, _, List.getElem?_eq_getElem hr, List.getElem?_eq_getElem hm, ?_⟩
  unfold LinearDelay.nextOut
  rw [if_pos hd, idx_ok hr, Res.ok_bind, uSub_ok (by omega), Res.ok_bind]
  by_cases hc : s.read_ptr < s.memory.length - 1
  · rw [if_pos hc, uAdd_ok (by omega), Res.ok_bind, idx_ok (by omega), Res.ok_bind]
    have : (s.read_ptr + 1) % s.memory.length = s.read_ptr + 1 := Nat.mod_eq_of_lt (by omega)
    simp only [this]
  · rw [if_neg hc, idx_ok h0, Res.ok_bind]
    have : (s.read_ptr + 1) % s.memory.length = 0 := by
      rw [show s.read_ptr + 1 = s.memory.length by omega]; exact Nat.mod_self _
    simp only [this]

omit [FloatOps D] [DelayTime D T] in
/-- `process` in general: the output is what `next_out` gives after the write. -/
theorem LinearDelay.process_eq [Target] {s : LinearDelay D T} (hi : s.WInv) (hr : s.read_ptr < s.memory.length) (x : T)
    {y : T} (hn : ∃ s1, LinearDelay.nextOut b (s.pushed x) = .ok (s1, y)) :
    s.process b x = .ok (s.stepped x y, y) := by
  have hw := hi.hw
  have hlen := hi.len_le
  have hmod := isizeMax_lt
  obtain ⟨s1, hn⟩ := hn
  obtain rfl := LinearDelay.nextOut_frame hn
  unfold LinearDelay.process
  rw [idxSet_ok hw, Res.ok_bind, uAdd_ok (by omega), Res.ok_bind, uRem_ok (by rw [List.length_set]; omega), Res.ok_bind]
  simp only [List.length_set]
  unfold LinearDelay.pushed at hn
  rw [hn, Res.ok_bind]
  simp only
  rw [uAdd_ok (by omega), Res.ok_bind, uRem_ok (by rw [List.length_set]; omega), Res.ok_bind]
  simp [LinearDelay.stepped, LinearDelay.pushed]

/-- What one `process` call leaves: everything but memory, positions, output and cache is kept. -/
structure LinearDelay.Next [Target] (s s' : LinearDelay D T) (x y : T) : Prop where
  hist : s'.hist = x :: s.hist.dropLast
  winv : s'.WInv
  len : s'.memory.length = s.memory.length
  delay : s'.delay = s.delay
  alpha : s'.alpha = s.alpha
  om_alpha : s'.om_alpha = s.om_alpha
  fresh : s'.do_next_out = true
  out : s'.output = y
  wptr : s'.write_ptr = (s.write_ptr + 1) % s.memory.length
  eff : ∀ e, s.Eff e → s'.Eff e

omit [FloatOps D] [DelayTime D T] in
theorem LinearDelay.next_of [Target] {s : LinearDelay D T} (hi : s.WInv) (x y : T) :
    LinearDelay.Next s (s.stepped x y) x y := by
  have hw := hi.hw
  have hl : (s.stepped x y).memory.length = s.memory.length := by simp [LinearDelay.stepped, LinearDelay.pushed]
  refine ⟨histOf_push hw x, ⟨?_, by rw [hl]; exact hi.cap⟩, hl, rfl, rfl, rfl,
    rfl, rfl, rfl, fun e he => ⟨by rw [hl]; exact he.1, ?_⟩⟩
  · rw [hl]; exact Nat.mod_lt _ (by omega)
  have h1 := he.1
  have h2 := he.2
  rw [hl]
  show (s.read_ptr + 1) % s.memory.length = if e ≤ (s.write_ptr + 1) % s.memory.length then
    (s.write_ptr + 1) % s.memory.length - e else s.memory.length + (s.write_ptr + 1) % s.memory.length - e
  rw [succ_mod hw, succ_mod (he.lt hw)]
  split at h2 <;> split <;> split <;> split <;> omega

omit [FloatOps D] [DelayTime D T] in
/-- One uncached `process` call, in terms of the history. -/
theorem LinearDelay.process_spec [Target] {s : LinearDelay D T} (hi : s.WInv) {e : ℕ} (he : s.Eff e)
    (hd : s.do_next_out = true) (x : T) :
    ∃ s' m0 m1, (x :: s.hist.dropLast)[e]? = some m0 ∧
      (x :: s.hist.dropLast)[older s.memory.length e]? = some m1 ∧
      s.process b x = .ok (s', (m0 *. s.om_alpha) +. (m1 *. s.alpha)) ∧
      LinearDelay.Next s s' x ((m0 *. s.om_alpha) +. (m1 *. s.alpha)) := by
  have hw := hi.hw
  have hr := he.lt hw
  have hlen := hi.len_le
  have hmod := isizeMax_lt
  obtain ⟨m0, m1, h0, h1, hn⟩ := LinearDelay.nextOut_eq (b := b) (s := s.pushed x)
    (by simpa [LinearDelay.pushed] using hr) hd (by simp [LinearDelay.pushed]; omega)
  simp only [LinearDelay.pushed, List.length_set] at h0 h1
  have hp := LinearDelay.process_eq (b := b) hi hr x ⟨_, hn⟩
  have hpush : histOf (s.memory.set s.write_ptr x) ((s.write_ptr + 1) % s.memory.length) = x :: s.hist.dropLast :=
    histOf_push hw x
  have hw' : (s.write_ptr + 1) % s.memory.length < s.memory.length := Nat.mod_lt _ (by omega)
  have e1 := he.1
  have e2 := he.2
  refine ⟨_, m0, m1, ?_, ?_, hp, LinearDelay.next_of hi x _⟩
  · rw [← hpush, histOf_get? (by simpa using hw') (by simpa using e1), ← h0]
    congr 1
    simp only [List.length_set]
    rw [succ_mod hw]
    unfold slot
    split at e2 <;> split <;> split <;> omega
  · have ho : older s.memory.length e < s.memory.length := by unfold older; split <;> omega
    rw [← hpush, histOf_get? (by simpa using hw') (by simpa using ho), ← h1]
    congr 1
    simp only [List.length_set]
    rw [succ_mod hw, succ_mod hr]
    unfold slot older
    split at e2 <;> split <;> split <;> split <;> split <;> omega

omit [FloatOps D] [DelayTime D T] in
/-- A `process` call after a pending `next_out` returns the cached value. -/
theorem LinearDelay.process_cached [Target] {s : LinearDelay D T} (hi : s.WInv) (hr : s.read_ptr < s.memory.length)
    (hd : s.do_next_out = false) (x : T) :
    ∃ s', s.process b x = .ok (s', s.next_out) ∧ LinearDelay.Next s s' x s.next_out := by
  have hn : LinearDelay.nextOut b (s.pushed x) = .ok (s.pushed x, s.next_out) := by
    unfold LinearDelay.nextOut
    rw [if_neg (by simp [LinearDelay.pushed, hd])]
    rfl
  exact ⟨_, LinearDelay.process_eq (b := b) hi hr x ⟨_, hn⟩, LinearDelay.next_of hi x _⟩

omit [FloatOps D] [DelayTime D T] in
/-- Stream of an uncached line, in terms of its contents `hist`. -/
theorem LinearDelay.responds [Target] {s : LinearDelay D T} (hi : s.WInv) {e : ℕ} (he : s.Eff e) (hd : s.do_next_out = true)
    (x : ℕ → T) :
    Responds b s x (fun n => (delayedBy e s.hist x n *. s.om_alpha) +.
      (delayedBy (older s.memory.length e) s.hist x n *. s.alpha)) := by
  have ho : older s.memory.length e < s.memory.length := by
    have := he.1
    unfold older; split <;> omega
  refine responds_of_inv (fun n s' => s'.WInv ∧ s'.Eff e ∧ s'.do_next_out = true ∧ s'.alpha = s.alpha ∧
    s'.om_alpha = s.om_alpha ∧ s'.memory.length = s.memory.length ∧
    ∀ k, k < s.memory.length → s'.hist[k]? = some (if k < n then x (n - 1 - k) else s.hist.getD (k - n) zero))
    ⟨hi, he, hd, rfl, rfl, rfl, fun k hk => ?_⟩ ?_
  · rw [List.getElem?_eq_getElem (by simpa using hk)]
    simp [List.getD_eq_getElem?_getD, List.getElem?_eq_getElem (show k < s.hist.length by simpa using hk)]
  · rintro n s' ⟨hi', he', hd', ha, hoa, hl, hh⟩
    obtain ⟨s2, m0, m1, h0, h1, hp, hnx⟩ := LinearDelay.process_spec (b := b) hi' he' hd' (x n)
    have key : ∀ k, k < s.memory.length → (x n :: s'.hist.dropLast)[k]? =
        some (if k < n + 1 then x (n + 1 - 1 - k) else s.hist.getD (k - (n + 1)) zero) := by
      intro k hk
      cases k with
      | zero => simp
      | succ k =>
        rw [List.getElem?_cons_succ, List.getElem?_dropLast, if_pos (by simp [hl]; omega), hh k (by omega)]
        congr 1
        by_cases hkn : k < n
        · rw [if_pos hkn, if_pos (by omega)]; congr 1; omega
        · rw [if_neg hkn, if_neg (by omega)]; congr 1; omega
    have key2 : ∀ k, k < s.memory.length → (x n :: s'.hist.dropLast)[k]? = some (delayedBy k s.hist x n) := by
      intro k hk
      rw [key k hk]
      unfold delayedBy
      by_cases hc : k ≤ n
      · rw [if_pos (show k < n + 1 by omega), if_pos hc]; rfl
      · rw [if_neg (show ¬ k < n + 1 by omega), if_neg hc]; congr 2
    rw [key2 e (by rw [← hl]; exact he'.1)] at h0
    rw [hl, key2 _ ho] at h1
    cases h0
    cases h1
    rw [ha, hoa] at hp
    exact ⟨s2, hp, hnx.winv, hnx.eff e he', hnx.fresh, hnx.alpha.trans ha, hnx.om_alpha.trans hoa, hnx.len.trans hl,
      fun k hk => by rw [hnx.hist]; exact key k hk⟩

/-- `set_delay`, given the value of its loop. -/
theorem LinearDelay.setDelay_eq [Target] {s : LinearDelay D T} (hl : 1 ≤ s.memory.length) {d pos : D}
    (hpos : whileLoop (fun x : D => lt x zero) (fun x => x +. ofUsize s.memory.length)
      (ofUsize s.write_ptr -. clipDelay d (ofUsize (s.memory.length - 1))) = .ok pos) :
    let r := if DelayTime.toUsize T pos = s.memory.length then 0 else DelayTime.toUsize T pos
    s.setDelay b d = .ok { s with
      delay := clipDelay d (ofUsize (s.memory.length - 1))
      read_ptr := r
      alpha := DelayTime.castTo (pos -. ofUsize r)
      om_alpha := one -. DelayTime.castTo (pos -. ofUsize r) } := by
  unfold LinearDelay.setDelay
  rw [uSub_ok hl, Res.ok_bind]
  simp only
  rw [hpos, Res.ok_bind]

end Rasp
