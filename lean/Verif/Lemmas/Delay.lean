import Verif.Lemmas.Ring
import Verif.Lemmas.Stream

/-! # Invariant and abstraction of `Delay` -/

namespace Rasp
open FloatOps
variable {T : Type} [FloatOps T] {b : Build}

/-- Invariant of every reachable `Delay`. -/
structure Delay.Inv [Target] (s : Delay T) : Prop where
  hw : s.write_ptr < s.memory.length
  hr : s.read_ptr < s.memory.length
  cap : s.memory.length * size T ≤ isizeMax

/-- The read position is `e` samples behind the write position. -/
def Delay.Eff (s : Delay T) (e : ℕ) : Prop :=
  e < s.memory.length ∧
    s.read_ptr = if e ≤ s.write_ptr then s.write_ptr - e else s.memory.length + s.write_ptr - e

/-- Stored samples, newest first. -/
def Delay.hist (s : Delay T) : List T := histOf s.memory s.write_ptr

omit [FloatOps T] in
@[simp] theorem Delay.hist_length (s : Delay T) : s.hist.length = s.memory.length := histOf_length

theorem Delay.Inv.len_le [Target] {s : Delay T} (h : s.Inv) : s.memory.length ≤ isizeMax :=
  le_isizeMax_of_mul size_pos h.cap

theorem Delay.Inv.lt_mod [Target] {s : Delay T} (h : s.Inv) {a : ℕ} (ha : a < s.memory.length) : a + 1 < usizeMod := by
  have := h.len_le
  have := isizeMax_lt
  omega

theorem Delay.process_eq [Target] {s : Delay T} (h : s.Inv) (x : T) :
    ∃ y, (s.memory.set s.write_ptr x)[s.read_ptr]? = some y ∧
      s.process b x = .ok ({ s with
        memory := s.memory.set s.write_ptr x, output := y,
        read_ptr := (s.read_ptr + 1) % s.memory.length,
        write_ptr := (s.write_ptr + 1) % s.memory.length }, y) := by
  have hr' : s.read_ptr < (s.memory.set s.write_ptr x).length := by simpa using h.hr
  refine ⟨(s.memory.set s.write_ptr x)[s.read_ptr], List.getElem?_eq_getElem hr', ?_⟩
  have hpos : s.memory.length ≠ 0 := by have := h.hw; omega
  unfold Delay.process
  rw [idxSet_ok h.hw, Res.ok_bind, uAdd_ok (h.lt_mod h.hw), Res.ok_bind]
  rw [uRem_ok (by simpa using hpos), Res.ok_bind, idx_ok hr', Res.ok_bind, uAdd_ok (h.lt_mod h.hr), Res.ok_bind,
    uRem_ok (by simpa using hpos), Res.ok_bind]
  simp

/-- One `process` call: pushes the sample, returns entry `e` of the new history. -/
theorem Delay.process_spec [Target] {s : Delay T} (h : s.Inv) {e : ℕ} (he : s.Eff e) (x : T) :
    ∃ s' y, s.process b x = .ok (s', y) ∧ s'.Inv ∧ s'.Eff e ∧ s'.hist = x :: s.hist.dropLast ∧
      (x :: s.hist.dropLast)[e]? = some y ∧ s'.delay = s.delay ∧ s'.output = y ∧
      s'.memory.length = s.memory.length := by
  obtain ⟨y, hy, hp⟩ := Delay.process_eq (b := b) h x
  have hw := h.hw
  have hr := h.hr
  have hpush : histOf (s.memory.set s.write_ptr x) ((s.write_ptr + 1) % s.memory.length)
      = x :: s.hist.dropLast := histOf_push hw x
  have hw' : (s.write_ptr + 1) % s.memory.length < s.memory.length := Nat.mod_lt _ (by omega)
  refine ⟨_, y, hp, ⟨?_, ?_, ?_⟩, ⟨?_, ?_⟩, hpush, ?_, rfl, rfl, by simp⟩
  · simpa using hw'
  · simpa using Nat.mod_lt _ (by omega : 0 < s.memory.length)
  · simpa using h.cap
  · simpa using he.1
  · have h1 := he.1
    have h2 := he.2
    simp only [List.length_set]
    rw [succ_mod hw, succ_mod hr]
    split at h2 <;> split <;> split <;> split <;> omega
  · rw [← hpush, histOf_get? (by simpa using hw') (by simpa using he.1), ← hy]
    congr 1
    have h1 := he.1
    have h2 := he.2
    simp only [List.length_set]
    rw [succ_mod hw]
    unfold slot
    split at h2 <;> split <;> split <;> omega

/-- `process` for any valid state, without knowledge of the read position. -/
theorem Delay.process_inv [Target] {s : Delay T} (h : s.Inv) (x : T) :
    ∃ s' y, s.process b x = .ok (s', y) ∧ s'.Inv := by
  obtain ⟨y, -, hp⟩ := Delay.process_eq (b := b) h x
  have hpos : 0 < s.memory.length := by have := h.hw; omega
  exact ⟨_, y, hp, by simpa using Nat.mod_lt _ hpos, by simpa using Nat.mod_lt _ hpos, by simpa using h.cap⟩

theorem Delay.setDelay_spec [Target] {s : Delay T} (hw : s.write_ptr < s.memory.length)
    (cap : s.memory.length * size T ≤ isizeMax) (d : ℕ) :
    ∃ s', s.setDelay b d = .ok s' ∧ s'.Inv ∧ s'.Eff (min d (s.memory.length - 1)) ∧
      s'.delay = min d (s.memory.length - 1) ∧ s'.memory = s.memory ∧ s'.write_ptr = s.write_ptr ∧
      s'.output = s.output := by
  have hlen : s.memory.length ≤ isizeMax := le_isizeMax_of_mul size_pos cap
  have hmax : isizeMax + isizeMax < usizeMod := by have := target; omega
  unfold Delay.setDelay
  rw [uSub_ok (by omega), Res.ok_bind]
  have hd : (if d > s.memory.length - 1 then s.memory.length - 1 else d) = min d (s.memory.length - 1) := by
    split <;> omega
  simp only [hd]
  by_cases hc : s.write_ptr ≥ min d (s.memory.length - 1)
  · rw [if_pos hc, uSub_ok hc, Res.ok_bind]
    refine ⟨_, rfl, ⟨hw, ?_, cap⟩, ⟨?_, ?_⟩, rfl, rfl, rfl, rfl⟩
    · show s.write_ptr - _ < s.memory.length; omega
    · show _ < s.memory.length; omega
    · show s.write_ptr - _ = _; rw [if_pos hc]
  · rw [if_neg hc, uAdd_ok (by omega), Res.ok_bind, uSub_ok (by omega), Res.ok_bind]
    refine ⟨_, rfl, ⟨hw, ?_, cap⟩, ⟨?_, ?_⟩, rfl, rfl, rfl, rfl⟩
    · show s.memory.length + s.write_ptr - _ < s.memory.length; omega
    · show _ < s.memory.length; omega
    · show s.memory.length + s.write_ptr - _ = _; rw [if_neg hc]

theorem Delay.new_spec [Target] {d m : ℕ} (hm : Allocatable T m) :
    ∃ s : Delay T, Delay.new b d m = .ok s ∧ s.Inv ∧ s.Eff (min d m) ∧ s.delay = min d m ∧
      s.memory = List.replicate (m + 1) zero ∧ s.write_ptr = 0 ∧ s.output = zero := by
  unfold Allocatable at hm
  have hlen : m + 1 ≤ isizeMax := le_isizeMax_of_mul (size_pos (T := T)) hm
  unfold Delay.new
  rw [uAdd_ok (by have := isizeMax_lt; omega), Res.ok_bind]
  unfold vecNew
  rw [if_pos hm, Res.ok_bind]
  obtain ⟨s', h1, h2, h3, h4, h5, h6, h7⟩ := Delay.setDelay_spec (b := b)
    (s := { memory := List.replicate (m + 1) (zero : T), output := zero, read_ptr := 0, write_ptr := 0, delay := 0 })
    (by simp) (by simpa using hm) (if d > m then m else d)
  have hd : min (if d > m then m else d) ((List.replicate (m + 1) (zero : T)).length - 1) = min d m := by
    simp only [List.length_replicate]; split <;> omega
  simp only [hd] at h3 h4
  exact ⟨s', h1, h2, h3, h4, h5, h6, h7⟩

theorem Delay.setMaxDelay_small [Target] {s : Delay T} {m : ℕ} (h : m < s.memory.length) : s.setMaxDelay b m = .ok s := by
  unfold Delay.setMaxDelay; rw [if_pos h]

theorem Delay.setMaxDelay_grow [Target] {s : Delay T} {m : ℕ} (h : s.memory.length ≤ m) (hm : Allocatable T m) :
    s.setMaxDelay b m = .ok { s with memory := s.memory ++ List.replicate (m + 1 - s.memory.length) zero } := by
  unfold Allocatable at hm
  have hlen : m + 1 ≤ isizeMax := le_isizeMax_of_mul (size_pos (T := T)) hm
  unfold Delay.setMaxDelay
  rw [if_neg (by omega), uAdd_ok (by have := isizeMax_lt; omega), Res.ok_bind]
  unfold vecResize
  rw [if_neg (by omega), if_pos hm, Res.ok_bind]

theorem Delay.setMaxDelay_inv [Target] {s : Delay T} (h : s.Inv) {m : ℕ} (hm : Allocatable T m) :
    ∃ s', s.setMaxDelay b m = .ok s' ∧ s'.Inv := by
  by_cases hc : m < s.memory.length
  · exact ⟨s, Delay.setMaxDelay_small hc, h⟩
  · refine ⟨_, Delay.setMaxDelay_grow (by omega) hm, ?_, ?_, ?_⟩
    · have := h.hw; simp; omega
    · have := h.hr; simp; omega
    · unfold Allocatable at hm
      simp only [List.length_append, List.length_replicate]
      rwa [show s.memory.length + (m + 1 - s.memory.length) = m + 1 by omega]

theorem Delay.tapOut_spec [Target] {s : Delay T} (h : s.Inv) {k : ℕ} (hk : k < s.memory.length) :
    ∃ y, s.tapOut b k = .ok y ∧ s.hist[k]? = some y := by
  unfold Delay.tapOut
  rw [tapIndex_ok h.hw hk h.len_le, Res.ok_bind, idx_ok (slot_lt h.hw hk)]
  exact ⟨_, rfl, by unfold Delay.hist; rw [histOf_get? h.hw hk, List.getElem?_eq_getElem (slot_lt h.hw hk)]⟩

theorem Delay.tapIn_spec [Target] {s : Delay T} (h : s.Inv) {k : ℕ} (hk : k < s.memory.length) (v : T) :
    ∃ s', s.tapIn b v k = .ok s' ∧ s'.Inv ∧ s'.hist = s.hist.set k v ∧ s'.delay = s.delay ∧
      s'.output = s.output ∧ s'.read_ptr = s.read_ptr ∧ s'.write_ptr = s.write_ptr ∧
      s'.memory.length = s.memory.length := by
  unfold Delay.tapIn
  rw [tapIndex_ok h.hw hk h.len_le, Res.ok_bind, idxSet_ok (slot_lt h.hw hk), Res.ok_bind]
  exact ⟨_, rfl, ⟨by simpa using h.hw, by simpa using h.hr, by simpa using h.cap⟩,
    histOf_set h.hw hk v, rfl, rfl, rfl, rfl, by simp⟩

theorem Delay.addTo_spec [Target] {s : Delay T} (h : s.Inv) {k : ℕ} (hk : k < s.memory.length) (v : T) :
    ∃ s' y, s.hist[k]? = some y ∧ s.addTo b v k = .ok (s', y +. v) ∧ s'.Inv ∧
      s'.hist = s.hist.set k (y +. v) ∧ s'.delay = s.delay ∧
      s'.output = s.output ∧ s'.read_ptr = s.read_ptr ∧ s'.write_ptr = s.write_ptr ∧
      s'.memory.length = s.memory.length := by
  have hs := slot_lt h.hw hk
  unfold Delay.addTo
  rw [tapIndex_ok h.hw hk h.len_le, Res.ok_bind, idx_ok hs, Res.ok_bind, idxSet_ok hs, Res.ok_bind,
    idx_ok (by simpa using hs), Res.ok_bind]
  simp only [List.getElem_set_self]
  exact ⟨_, _, by unfold Delay.hist; rw [histOf_get? h.hw hk, List.getElem?_eq_getElem hs], rfl,
    ⟨by simpa using h.hw, by simpa using h.hr, by simpa using h.cap⟩,
    histOf_set h.hw hk _, rfl, rfl, rfl, rfl, by simp⟩

/-- `next_out` reads entry `e - 1`, or the oldest entry when `e = 0`. -/
theorem Delay.nextOut_spec [Target] {s : Delay T} (h : s.Inv) {e : ℕ} (he : s.Eff e) :
    ∃ y, s.nextOut = .ok y ∧ s.hist[if e = 0 then s.memory.length - 1 else e - 1]? = some y := by
  unfold Delay.nextOut
  have hw := h.hw
  have h1 := he.1
  have h2 := he.2
  rw [idx_ok h.hr]
  refine ⟨_, rfl, ?_⟩
  unfold Delay.hist
  rw [histOf_get? hw (by split <;> omega), ← List.getElem?_eq_getElem h.hr]
  congr 1
  rw [h2]
  unfold slot
  split <;> split <;> split <;> omega

theorem Delay.clear_spec [Target] {s : Delay T} (h : s.Inv) : s.clear.Inv ∧
    s.clear.hist = List.replicate s.memory.length zero ∧ ∀ e, s.Eff e → s.clear.Eff e := by
  refine ⟨⟨by simpa [Delay.clear] using h.hw, by simpa [Delay.clear] using h.hr, by simpa [Delay.clear] using h.cap⟩,
    ?_, fun e he => ?_⟩
  · unfold Delay.hist Delay.clear
    simp only [map_const_eq_replicate]
    exact histOf_replicate _ _ _
  · exact ⟨by simpa [Delay.clear] using he.1, by simpa [Delay.clear] using he.2⟩

end Rasp
