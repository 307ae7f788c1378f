import Verif.Spec.SeamLine
import Verif.Props.DelayGrow

/-! # C75: `Delay` with growth and arbitrary taps -/

namespace Rasp
open FloatOps
variable {T : Type} [FloatOps T] {b : Build}

/-- `s` represents the abstract line `l`. -/
structure Delay.Models [Target] (s : Delay T) (l : SeamLine T) : Prop where
  inv : s.Inv
  eff : s.Eff l.eff
  hist : s.hist = l.hist
  delay : s.delay = l.delay
  seam : s.write_ptr = l.seam
  out : s.output = l.out

theorem tapIndex_none [Target] (hsz : 4 ≤ size T) {n w k : ℕ} (hw : w < n) (cap : n * size T ≤ isizeMax) (hk : n + w ≤ k)
    (hk2 : k < usizeMod - (n - w)) : tapIndex b w k n = .error .panic ∨ ∃ i, n ≤ i ∧ tapIndex b w k n = .ok i :=
  tapIndex_reject hw hk hk2 (le_trans (by rw [Nat.mul_comm]; exact Nat.mul_le_mul_left _ hsz) cap)

theorem tapIndex_eq [Target] (hsz : 4 ≤ size T) {n w k : ℕ} (hw : w < n) (cap : n * size T ≤ isizeMax) (hk2 : k < usizeMod)
    {j : ℕ} (hj : tapOf n w k = some j) :
    j < n ∧ tapIndex b w k n = tapIndex b w j n := by
  have h4 : 4 * n ≤ isizeMax := le_trans (by rw [Nat.mul_comm]; exact Nat.mul_le_mul_left _ hsz) cap
  have hn : n ≤ isizeMax := by omega
  have ht := target
  unfold tapOf at hj
  split at hj
  · obtain rfl := Option.some.inj hj; exact ⟨by assumption, rfl⟩
  split at hj
  · obtain rfl := Option.some.inj hj
    exact ⟨by omega, by rw [tapIndex_alias hw (by omega) (by omega) h4, tapIndex_ok hw (by omega) hn]⟩
  split at hj
  · obtain rfl := Option.some.inj hj
    exact ⟨by omega, by rw [tapIndex_wrap hw (by omega) hk2 h4, tapIndex_ok hw (by omega) hn]⟩
  · cases hj

theorem tapOf_none [Target] {n w k : ℕ} (h : tapOf n w k = none) : n + w ≤ k ∧ k < usizeMod - (n - w) := by
  have ht := target
  unfold tapOf at h
  split at h
  · cases h
  split at h
  · cases h
  split at h
  · cases h
  · omega

/-- One call: the model does what the abstract line does, panics included. -/
theorem step_models [Target] (hsz : 4 ≤ size T) {s : Delay T} {l : SeamLine T} (h : s.Models l) {op : DelayOp T} (ho : op.Args) :
    match l.step op with
    | none => s.step b op = .error .panic
    | some (l', o) => ∃ s', s.step b op = .ok (s', o) ∧ s'.Models l' := by
  obtain ⟨hi, he, hh, hd, hw, hout⟩ := h
  have hlen : s.memory.length = l.hist.length := by rw [← hh]; simp
  have hwl := hi.hw
  cases op with
  | process x =>
    obtain ⟨s2, y, hp, hi2, he2, hh2, hy, hd2, ho2, -⟩ := Delay.process_spec (b := b) hi he x
    obtain ⟨y', -, hp'⟩ := Delay.process_eq (b := b) hi x
    rw [hh] at hy hh2
    refine ⟨s2, ?_, hi2, he2, hh2, hd2.trans hd, ?_, ?_⟩
    · simp only [Delay.step, hp, Res.ok_bind, getD_of_get? hy]
    · rw [hp] at hp'
      cases hp'
      show (s.write_ptr + 1) % s.memory.length = _
      rw [hw, hlen]
    · simp only [getD_of_get? hy, ho2]
  | setDelay d =>
    obtain ⟨s2, hp, hi2, he2, hd2, hm2, hw2, ho2⟩ := Delay.setDelay_spec (b := b) hi.hw hi.cap d
    rw [hlen] at he2 hd2
    refine ⟨s2, by simp only [Delay.step, hp, Res.ok_bind], hi2, he2, ?_, hd2, hw2.trans hw, ho2.trans hout⟩
    show histOf s2.memory s2.write_ptr = _
    rw [hm2, hw2]; exact hh
  | setMaxDelay m =>
    unfold SeamLine.step
    by_cases hc : m < l.hist.length
    · simp only [if_pos hc]
      exact ⟨s, by simp only [Delay.step, Delay.setMaxDelay_small (hlen ▸ hc), Res.ok_bind], hi, he, hh, hd, hw, hout⟩
    · simp only [if_neg hc]
      obtain ⟨s2, h1, hi2, -, hd2, he2, hh2⟩ := Delay.grow_spec (b := b) hi he (by omega) (show Allocatable T m from ho)
      have hg := Delay.setMaxDelay_grow (b := b) (s := s) (m := m) (by omega) ho
      refine ⟨s2, by simp only [Delay.step, h1, Res.ok_bind], hi2, ?_, ?_, hd2.trans hd, ?_, ?_⟩
      · rw [hw, hlen] at he2; exact he2
      · rw [hh2, hh, hw, hlen]
      · rw [h1] at hg; cases hg; exact hw
      · rw [h1] at hg; cases hg; exact hout
  | getDelay => exact ⟨s, by simp only [Delay.step, Delay.getDelay, hd], hi, he, hh, hd, hw, hout⟩
  | getMaxDelay =>
    refine ⟨s, ?_, hi, he, hh, hd, hw, hout⟩
    simp only [Delay.step, Delay.getMaxDelay]
    rw [uSub_ok (by omega), Res.ok_bind, hlen]
  | nextOut =>
    obtain ⟨y, hp, hy⟩ := Delay.nextOut_spec hi he
    refine ⟨s, ?_, hi, he, hh, hd, hw, hout⟩
    simp only [Delay.step, hp, Res.ok_bind]
    rw [hh, hlen] at hy
    by_cases h0 : l.eff = 0
    · rw [if_pos h0] at hy ⊢; rw [getD_of_get? hy]
    · rw [if_neg h0] at hy ⊢; rw [getD_of_get? hy]
  | tapOut k =>
    cases ht : l.tap? k with
    | none =>
      obtain ⟨h1, h2⟩ := tapOf_none ht
      simp only [SeamLine.step, ht, Option.map_none, Delay.step, Delay.tapOut]
      rcases tapIndex_none (b := b) hsz hwl hi.cap (by omega) (by omega : k < _) with h | ⟨i, hi', h⟩
      · rw [h]; rfl
      · rw [h, Res.ok_bind, idx_panic hi']; rfl
    | some j =>
      simp only [SeamLine.step, ht, Option.map_some]
      obtain ⟨hj, hx⟩ := tapIndex_eq (b := b) (n := s.memory.length) (w := s.write_ptr) hsz hwl hi.cap ho (by rw [hlen, hw]; exact ht)
      obtain ⟨y, hp, hy⟩ := Delay.tapOut_spec (b := b) hi hj
      have hp' : s.tapOut b k = .ok y := by unfold Delay.tapOut at hp ⊢; rw [hx]; exact hp
      rw [hh] at hy
      exact ⟨s, by simp only [Delay.step, hp', Res.ok_bind, getD_of_get? hy], hi, he, hh, hd, hw, hout⟩
  | tapIn v k =>
    cases ht : l.tap? k with
    | none =>
      obtain ⟨h1, h2⟩ := tapOf_none ht
      simp only [SeamLine.step, ht, Option.map_none, Delay.step, Delay.tapIn]
      rcases tapIndex_none (b := b) hsz hwl hi.cap (by omega) (by omega : k < _) with h | ⟨i, hi', h⟩
      · rw [h]; rfl
      · rw [h, Res.ok_bind, idxSet_panic hi']; rfl
    | some j =>
      simp only [SeamLine.step, ht, Option.map_some]
      obtain ⟨hj, hx⟩ := tapIndex_eq (b := b) (n := s.memory.length) (w := s.write_ptr) hsz hwl hi.cap ho (by rw [hlen, hw]; exact ht)
      obtain ⟨s2, hp, hi2, hh2, hd2, ho2, hr2, hw2, hl2⟩ := Delay.tapIn_spec (b := b) hi hj v
      have hp' : s.tapIn b v k = .ok s2 := by unfold Delay.tapIn at hp ⊢; rw [hx]; exact hp
      refine ⟨s2, by simp only [Delay.step, hp', Res.ok_bind], hi2, ?_, ?_, hd2.trans hd, hw2.trans hw, ho2.trans hout⟩
      · unfold Delay.Eff; rw [hl2, hr2, hw2]; exact he
      · rw [hh2, hh]
  | addTo v k =>
    cases ht : l.tap? k with
    | none =>
      obtain ⟨h1, h2⟩ := tapOf_none ht
      simp only [SeamLine.step, ht, Option.map_none, Delay.step, Delay.addTo]
      rcases tapIndex_none (b := b) hsz hwl hi.cap (by omega) (by omega : k < _) with h | ⟨i, hi', h⟩
      · rw [h]; rfl
      · rw [h, Res.ok_bind, idx_panic hi']; rfl
    | some j =>
      simp only [SeamLine.step, ht, Option.map_some]
      obtain ⟨hj, hx⟩ := tapIndex_eq (b := b) (n := s.memory.length) (w := s.write_ptr) hsz hwl hi.cap ho (by rw [hlen, hw]; exact ht)
      obtain ⟨s2, y, hy, hp, hi2, hh2, hd2, ho2, hr2, hw2, hl2⟩ := Delay.addTo_spec (b := b) hi hj v
      have hp' : s.addTo b v k = .ok (s2, y +. v) := by unfold Delay.addTo at hp ⊢; rw [hx]; exact hp
      rw [hh] at hy hh2
      refine ⟨s2, by simp only [Delay.step, hp', Res.ok_bind, getD_of_get? hy], hi2, ?_, ?_, hd2.trans hd, hw2.trans hw,
        ho2.trans hout⟩
      · unfold Delay.Eff; rw [hl2, hr2, hw2]; exact he
      · simp only [getD_of_get? hy, hh2]
  | clear =>
    obtain ⟨hi2, hh2, he2⟩ := Delay.clear_spec hi
    exact ⟨s.clear, rfl, hi2, he2 _ he, by rw [hh2, hlen], hd, hw, rfl⟩
  | lastOut => exact ⟨s, by simp only [Delay.step, Delay.lastOut, hout], hi, he, hh, hd, hw, hout⟩

/-- **C75.** From a new line every sequence of public calls, with growth and with arbitrary tap arguments, returns exactly
what the abstract line returns, call by call, and panics exactly where it does. `4 ≤ size T` holds for `f32` and `f64`. -/
theorem C75_delay_complete [Target] (hsz : 4 ≤ size T) {d m : ℕ} (hm : Allocatable T m) :
    ∃ s : Delay T, Delay.new b d m = .ok s ∧ ∀ ops : List (DelayOp T), (∀ op ∈ ops, op.Args) →
      (s.run b ops).map Prod.snd = outcome ((SeamLine.new d m : SeamLine T).run ops) := by
  obtain ⟨s, hn, hi, he, hd, hmem, hw, ho⟩ := Delay.new_spec (b := b) (d := d) hm
  have h0 : s.Models (SeamLine.new d m) := by
    refine ⟨hi, he, ?_, hd, hw, ho⟩
    show histOf s.memory s.write_ptr = _
    rw [hmem, histOf_replicate]; rfl
  refine ⟨s, hn, fun ops => ?_⟩
  clear hn hi he hd hmem hw ho
  generalize (SeamLine.new d m : SeamLine T) = l at h0
  induction ops generalizing s l with
  | nil => intro _; rfl
  | cons op ops ih =>
    intro ha
    have h1 := step_models (b := b) hsz h0 (ha op (by simp))
    unfold SeamLine.run
    cases hst : l.step op with
    | none =>
      rw [hst] at h1
      simp only [Delay.run, h1, outcome]
      rfl
    | some r =>
      obtain ⟨l', o⟩ := r
      rw [hst] at h1
      obtain ⟨s', h2, h3⟩ := h1
      have h4 := ih s' l' h3 (fun op h => ha op (by simp [h]))
      simp only [Delay.run, h2, Res.ok_bind]
      cases hr : s'.run b ops with
      | error e =>
        rw [hr] at h4
        cases hl : l'.run ops with
        | none => rw [hl] at h4; exact h4
        | some os => rw [hl] at h4; cases h4
      | ok q =>
        rw [hr] at h4
        cases hl : l'.run ops with
        | none => rw [hl] at h4; cases h4
        | some os =>
          rw [hl] at h4
          have : q.2 = os := Except.ok.inj h4
          simp only [Res.ok_bind, Option.map_some, outcome, ← this]
          rfl

/-- Non-vacuity: a sequence with growth, an aliasing tap and a panic, and what it returns. -/
example [Target] : (∀ op ∈ ([.process 1, .setMaxDelay 3, .tapOut 4, .process 2] : List (DelayOp ℝ)), op.Args) ∧
    (SeamLine.new 1 1 : SeamLine ℝ).run [.process 1, .setMaxDelay 3, .tapOut 4, .process 2] =
      some [.sample 0, .unit, .sample 1, .sample 1] ∧
    (SeamLine.new 1 1 : SeamLine ℝ).run [.process 1, .tapOut 7] = none := by
  have ht := target
  refine ⟨?_, ?_, ?_⟩
  · simp [DelayOp.Args, Allocatable, FloatOps.size]; omega
  · simp [SeamLine.new, SeamLine.run, SeamLine.step, SeamLine.tap?, tapOf, List.replicate, FloatOps.zero]
  · simp [SeamLine.new, SeamLine.run, SeamLine.step, SeamLine.tap?, tapOf, List.replicate, show ¬ usizeMod ≤ 8 by omega]

end Rasp
