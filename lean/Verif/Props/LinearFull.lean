import Verif.Spec.SeamLinear
import Verif.Props.DelayFull
import Verif.Props.LinearReal

/-! # C77: `LinearDelay` with growth, pending values and arbitrary taps -/

namespace Rasp
open FloatOps
variable {D T : Type} [FloatOps D] [FloatOps T] [DelayTime D T] {b : Build}

/-- `s` represents the abstract line `l`. -/
structure LinearDelay.Models [Target] (s : LinearDelay D T) (l : SeamLinear D T) : Prop where
  inv : s.WInv
  eff : s.Eff l.eff
  hist : s.hist = l.hist
  delay : s.delay = l.delay
  alpha : s.alpha = l.frac
  om_alpha : s.om_alpha = one -. l.frac
  seam : s.write_ptr = l.seam
  fresh : l.pending = none → s.do_next_out = true
  pending : ∀ v, l.pending = some v → s.do_next_out = false ∧ s.next_out = v
  out : s.output = l.out

/-- `place` describes `set_delay` on lines of at most `N` slots. -/
def PlacedBy [Target] (b : Build) (N : ℕ) (place : Placement D T) : Prop :=
  ∀ (s : LinearDelay D T) (d : D), s.WInv → s.memory.length ≤ N →
    (∃ s', s.setDelay b d = .ok s' ∧ s'.delay = (place s.write_ptr s.memory.length d).1 ∧
      s'.Eff (place s.write_ptr s.memory.length d).2.1 ∧ s'.alpha = (place s.write_ptr s.memory.length d).2.2 ∧
      s'.om_alpha = one -. (place s.write_ptr s.memory.length d).2.2) ∧
    s.setDelay b (clipDelay d (ofUsize (s.memory.length - 1))) = s.setDelay b d

theorem LinearDelay.Models.set [Target] {place : Placement D T} {N : ℕ} (hp : PlacedBy b N place) {s : LinearDelay D T}
    {l : SeamLinear D T} (h : s.Models l) (hN : s.memory.length ≤ N) (d : D) :
    ∃ s', s.setDelay b d = .ok s' ∧ s'.Models (l.set place d) := by
  obtain ⟨⟨s', h1, h2, h3, h4, h5⟩, -⟩ := hp s d h.inv hN
  obtain ⟨f1, f2, f3, f4, f5⟩ := LinearDelay.setDelay_frame h1
  have hlen : s.memory.length = l.hist.length := by rw [← h.hist]; simp
  rw [h.seam, hlen] at h2 h3 h4 h5
  refine ⟨s', h1, ⟨by rw [f1, f2]; exact h.inv.hw, by rw [f1]; exact h.inv.cap⟩, h3, ?_, h2, h4, h5, f2.trans h.seam,
    fun hn => f4.trans (h.fresh hn), fun v hv => ⟨f4.trans (h.pending v hv).1, f5.trans (h.pending v hv).2⟩,
    f3.trans h.out⟩
  unfold LinearDelay.hist; rw [f1, f2]; exact h.hist

omit [FloatOps D] [DelayTime D T] in
theorem older_eq (n e : ℕ) : older n e = if e = 0 then n - 1 else e - 1 := rfl

omit [FloatOps D] [FloatOps T] [DelayTime D T] in
/-- The stored samples with the oldest in front, by memory position. -/
theorem LinearDelay.rot_get? {s : LinearDelay D T} (hw : s.write_ptr < s.memory.length) (z : T) {k : ℕ}
    (hk : k < s.memory.length) :
    (s.hist.getD (s.hist.length - 1) z :: s.hist.dropLast)[k]? =
      s.memory[if k ≤ s.write_ptr then s.write_ptr - k else s.memory.length + s.write_ptr - k]? := by
  cases k with
  | zero =>
    rw [List.getElem?_cons_zero, if_pos (by omega), Nat.sub_zero, LinearDelay.hist_length, List.getD_eq_getElem?_getD]
    unfold LinearDelay.hist
    rw [histOf_get? hw (by omega)]
    unfold slot
    rw [if_neg (by omega), show s.write_ptr + s.memory.length - 1 - (s.memory.length - 1) = s.write_ptr by omega,
      List.getElem?_eq_getElem hw]
    rfl
  | succ k =>
    rw [List.getElem?_cons_succ, List.getElem?_dropLast, if_pos (by simp; omega)]
    unfold LinearDelay.hist
    rw [histOf_get? hw (by omega)]
    unfold slot
    congr 1
    split <;> split <;> omega

/-- One call: the model does what the abstract line does, panics included. -/
theorem LinearDelay.step_models [Target] (hsz : 4 ≤ size T) {place : Placement D T} {N : ℕ} (hp : PlacedBy b N place)
    {s : LinearDelay D T} {l : SeamLinear D T} (h : s.Models l) (hN : l.hist.length ≤ N) {op : LinOp D T} (ho : op.Args N) :
    match l.step place op with
    | none => s.step b op = .error .panic
    | some (l', o) => ∃ s', s.step b op = .ok (s', o) ∧ s'.Models l' ∧ l'.hist.length ≤ N := by
  have hlen : s.memory.length = l.hist.length := by rw [← h.hist]; simp
  have hwl := h.inv.hw
  have hcap := h.inv.len_le
  have hmod := isizeMax_lt
  cases op with
  | process x =>
    have hl' : (x :: l.hist.dropLast).length = l.hist.length := by simp; omega
    cases hpd : l.pending with
    | none =>
      obtain ⟨s2, m0, m1, h0, h1, hq, hnx⟩ := LinearDelay.process_spec (b := b) h.inv h.eff (h.fresh hpd) x
      rw [h.hist] at h0 h1
      have hy : l.mix (x :: l.hist.dropLast) = (m0 *. s.om_alpha) +. (m1 *. s.alpha) := by
        unfold SeamLinear.mix
        rw [hl', ← hlen, ← older_eq, getD_of_get? h0, getD_of_get? h1, h.alpha, h.om_alpha]
      simp only [SeamLinear.step, hpd, Option.getD_none, hy]
      refine ⟨s2, by simp only [LinearDelay.step, hq, Res.ok_bind], ⟨hnx.winv, hnx.eff _ h.eff, ?_, hnx.delay.trans h.delay,
        hnx.alpha.trans h.alpha, hnx.om_alpha.trans h.om_alpha, ?_, fun _ => hnx.fresh, (fun v hv => by cases hv), hnx.out⟩,
        by simpa using hl'.le.trans hN⟩
      · rw [hnx.hist, h.hist]
      · rw [hnx.wptr, h.seam, hlen]
    | some v =>
      obtain ⟨hd, hv⟩ := h.pending v hpd
      obtain ⟨s2, hq, hnx⟩ := LinearDelay.process_cached (b := b) h.inv (h.eff.lt hwl) hd x
      rw [hv] at hq hnx
      simp only [SeamLinear.step, hpd, Option.getD_some]
      refine ⟨s2, by simp only [LinearDelay.step, hq, Res.ok_bind], ⟨hnx.winv, hnx.eff _ h.eff, ?_, hnx.delay.trans h.delay,
        hnx.alpha.trans h.alpha, hnx.om_alpha.trans h.om_alpha, ?_, fun _ => hnx.fresh, (fun v hv => by cases hv), hnx.out⟩,
        by simpa using hl'.le.trans hN⟩
      · rw [hnx.hist, h.hist]
      · rw [hnx.wptr, h.seam, hlen]
  | setDelay d =>
    obtain ⟨s', h1, h2⟩ := h.set hp (hlen ▸ hN) d
    exact ⟨s', by simp only [LinearDelay.step, h1, Res.ok_bind], h2, hN⟩
  | setMaxDelay m =>
    unfold SeamLinear.step
    by_cases hc : m < l.hist.length
    · simp only [if_pos hc]
      exact ⟨s, by simp only [LinearDelay.step, LinearDelay.setMaxDelay_small (hlen ▸ hc), Res.ok_bind], h, hN⟩
    · simp only [if_neg hc]
      have hg := LinearDelay.setMaxDelay_grow (b := b) (s := s) (m := m) (by omega) ho.1
      have ha := ho.1
      unfold Allocatable at ha
      have e1 := h.eff.1
      have e2 := h.eff.2
      refine ⟨{ s with memory := s.memory ++ List.replicate (m + 1 - s.memory.length) zero },
        by simp only [LinearDelay.step, hg, Res.ok_bind], ⟨⟨?_, ?_⟩, ⟨?_, ?_⟩, ?_, h.delay, h.alpha, h.om_alpha,
        h.seam, h.fresh, h.pending, h.out⟩, ?_⟩
      · simp only [List.length_append, List.length_replicate]; omega
      · simp only [List.length_append, List.length_replicate]
        rwa [show s.memory.length + (m + 1 - s.memory.length) = m + 1 by omega]
      · simp only [List.length_append, List.length_replicate]; split <;> omega
      · simp only [List.length_append, List.length_replicate]
        rw [e2, ← h.seam, hlen]; split
        · rfl
        · rw [if_neg (by omega)]; omega
      · have := histOf_append hwl (List.replicate (m + 1 - s.memory.length) (zero : T))
        rw [List.reverse_replicate] at this
        show histOf _ s.write_ptr = _
        rw [this]
        show List.take _ s.hist ++ _ ++ List.drop _ s.hist = _
        rw [h.hist, h.seam, hlen]
      · have := ho.2
        simp only [List.length_append, List.length_replicate, List.length_take, List.length_drop]; omega
  | nextOut =>
    cases hpd : l.pending with
    | none =>
      have hr := h.eff.lt hwl
      obtain ⟨m0, m1, h0, h1, hq⟩ := LinearDelay.nextOut_eq (b := b) hr (h.fresh hpd) (by omega)
      have e1 := h.eff.1
      have e2 := h.eff.2
      have r0 := LinearDelay.rot_get? (s := s) hwl zero e1
      have ho1 : older s.memory.length l.eff < s.memory.length := by unfold older; split <;> omega
      have r1 := LinearDelay.rot_get? (s := s) hwl zero ho1
      rw [← e2, h0] at r0
      have hpos : (if older s.memory.length l.eff ≤ s.write_ptr then s.write_ptr - older s.memory.length l.eff
          else s.memory.length + s.write_ptr - older s.memory.length l.eff) = (s.read_ptr + 1) % s.memory.length := by
        rw [succ_mod hr]
        unfold older
        split at e2 <;> split <;> split <;> split <;> omega
      rw [hpos, h1] at r1
      rw [h.hist] at r0 r1
      have hl' : (l.hist.getD (l.hist.length - 1) zero :: l.hist.dropLast).length = l.hist.length := by simp; omega
      have hy : l.mix (l.hist.getD (l.hist.length - 1) zero :: l.hist.dropLast) =
          (m0 *. s.om_alpha) +. (m1 *. s.alpha) := by
        unfold SeamLinear.mix
        rw [hl', ← hlen, ← older_eq]
        rw [← hlen] at r0 r1
        rw [getD_of_get? r0, getD_of_get? r1, h.alpha, h.om_alpha]
      simp only [SeamLinear.step, hpd, Option.getD_none, hy]
      exact ⟨{ s with next_out := (m0 *. s.om_alpha) +. (m1 *. s.alpha), do_next_out := false },
        by simp only [LinearDelay.step, hq, Res.ok_bind], ⟨⟨hwl, h.inv.cap⟩, h.eff, h.hist, h.delay, h.alpha,
        h.om_alpha, h.seam, (by intro hn; cases hn), (fun v hv => by cases hv; exact ⟨rfl, rfl⟩), h.out⟩, hN⟩
    | some v =>
      obtain ⟨hd, hv⟩ := h.pending v hpd
      have hq : s.nextOut b = .ok (s, s.next_out) := by
        unfold LinearDelay.nextOut; rw [if_neg (by simp [hd])]
      simp only [SeamLinear.step, hpd, Option.getD_some]
      exact ⟨s, by simp only [LinearDelay.step, hq, Res.ok_bind, hv], ⟨h.inv, h.eff, h.hist, h.delay, h.alpha,
        h.om_alpha, h.seam, (by intro hn; cases hn), (fun w hw => by cases hw; exact ⟨hd, hv⟩), h.out⟩, hN⟩
  | tapOut k =>
    cases ht : tapOf l.hist.length l.seam k with
    | none =>
      obtain ⟨h1, h2⟩ := tapOf_none ht
      simp only [SeamLinear.step, ht, Option.map_none, LinearDelay.step, LinearDelay.tapOut]
      rcases tapIndex_none (b := b) (k := k) hsz hwl h.inv.cap (by rw [h.seam, hlen]; exact h1) (by rw [h.seam, hlen]; exact h2) with
        h | ⟨i, hi', h⟩
      · rw [h]; rfl
      · rw [h, Res.ok_bind, idx_panic hi']; rfl
    | some j =>
      simp only [SeamLinear.step, ht, Option.map_some]
      obtain ⟨hj, hx⟩ := tapIndex_eq (b := b) (n := s.memory.length) (w := s.write_ptr) hsz hwl h.inv.cap ho
        (by rw [hlen, h.seam]; exact ht)
      obtain ⟨y, hq, hy⟩ := LinearDelay.tapOut_spec (b := b) h.inv hj
      have hq' : s.tapOut b k = .ok y := by unfold LinearDelay.tapOut at hq ⊢; rw [hx]; exact hq
      rw [h.hist] at hy
      exact ⟨s, by simp only [LinearDelay.step, hq', Res.ok_bind, getD_of_get? hy], h, hN⟩
  | tapIn v k =>
    cases ht : tapOf l.hist.length l.seam k with
    | none =>
      obtain ⟨h1, h2⟩ := tapOf_none ht
      simp only [SeamLinear.step, ht, Option.map_none, LinearDelay.step, LinearDelay.tapIn]
      rcases tapIndex_none (b := b) (k := k) hsz hwl h.inv.cap (by rw [h.seam, hlen]; exact h1) (by rw [h.seam, hlen]; exact h2) with
        h | ⟨i, hi', h⟩
      · rw [h]; rfl
      · rw [h, Res.ok_bind, idxSet_panic hi']; rfl
    | some j =>
      simp only [SeamLinear.step, ht, Option.map_some]
      obtain ⟨hj, hx⟩ := tapIndex_eq (b := b) (n := s.memory.length) (w := s.write_ptr) hsz hwl h.inv.cap ho
        (by rw [hlen, h.seam]; exact ht)
      obtain ⟨m, hq, hh, hl⟩ := LinearDelay.tapIn_spec (b := b) h.inv hj v
      have hq' : s.tapIn b v k = .ok { s with memory := m } := by unfold LinearDelay.tapIn at hq ⊢; rw [hx]; exact hq
      refine ⟨{ s with memory := m }, by simp only [LinearDelay.step, hq', Res.ok_bind], ⟨⟨by simpa [hl] using hwl, by simpa [hl] using h.inv.cap⟩,
        ?_, ?_, h.delay, h.alpha, h.om_alpha, h.seam, h.fresh, h.pending, h.out⟩, by simpa using hN⟩
      · unfold LinearDelay.Eff; simp only [hl]; exact h.eff
      · show histOf m s.write_ptr = _
        rw [hh, h.hist]
  | addTo v k =>
    cases ht : tapOf l.hist.length l.seam k with
    | none =>
      obtain ⟨h1, h2⟩ := tapOf_none ht
      simp only [SeamLinear.step, ht, Option.map_none, LinearDelay.step, LinearDelay.addTo]
      rcases tapIndex_none (b := b) (k := k) hsz hwl h.inv.cap (by rw [h.seam, hlen]; exact h1) (by rw [h.seam, hlen]; exact h2) with
        h | ⟨i, hi', h⟩
      · rw [h]; rfl
      · rw [h, Res.ok_bind, idx_panic hi']; rfl
    | some j =>
      simp only [SeamLinear.step, ht, Option.map_some]
      obtain ⟨hj, hx⟩ := tapIndex_eq (b := b) (n := s.memory.length) (w := s.write_ptr) hsz hwl h.inv.cap ho
        (by rw [hlen, h.seam]; exact ht)
      obtain ⟨m, y, hy, hq, hh, hl⟩ := LinearDelay.addTo_spec (b := b) h.inv hj v
      have hq' : s.addTo b v k = .ok ({ s with memory := m }, y +. v) := by
        unfold LinearDelay.addTo at hq ⊢; rw [hx]; exact hq
      rw [h.hist] at hy hh
      refine ⟨{ s with memory := m }, by simp only [LinearDelay.step, hq', Res.ok_bind, getD_of_get? hy],
        ⟨⟨by simpa [hl] using hwl, by simpa [hl] using h.inv.cap⟩,
        ?_, ?_, h.delay, h.alpha, h.om_alpha, h.seam, h.fresh, h.pending, h.out⟩, by simpa using hN⟩
      · unfold LinearDelay.Eff; simp only [hl]; exact h.eff
      · show histOf m s.write_ptr = _
        rw [hh, getD_of_get? hy]
  | clear =>
    refine ⟨s.clear, rfl, ⟨⟨by simpa [LinearDelay.clear] using hwl, by simpa [LinearDelay.clear] using h.inv.cap⟩, ?_, ?_,
      h.delay, h.alpha, h.om_alpha, h.seam, h.fresh, h.pending, rfl⟩, by simpa using hN⟩
    · have := h.eff
      unfold LinearDelay.Eff at this ⊢; simpa [LinearDelay.clear] using this
    · show histOf (s.memory.map fun _ => zero) s.write_ptr = _
      rw [map_const_eq_replicate, histOf_replicate, hlen]

/-- What a run of the model and a run of the abstract line have in common: the returned values, and then the getters. -/
def Agrees [Target] (b : Build) (r : Res (LinearDelay D T × List (Obs T))) (l : Option (SeamLinear D T × List (Obs T))) : Prop :=
  match l with
  | none => r = .error .panic
  | some (l', os) => ∃ s', r = .ok (s', os) ∧ s'.getDelay = l'.delay ∧
      s'.getMaxDelay b = .ok (l'.hist.length - 1) ∧ s'.lastOut = l'.out

theorem LinearDelay.run_models [Target] (hsz : 4 ≤ size T) {place : Placement D T} {N : ℕ} (hp : PlacedBy b N place)
    {ops : List (LinOp D T)} : ∀ {s : LinearDelay D T} {l : SeamLinear D T}, s.Models l → l.hist.length ≤ N →
      (∀ op ∈ ops, op.Args N) → Agrees b (s.run b ops) (l.run place ops) := by
  induction ops with
  | nil =>
    intro s l h hN _
    have hlen : s.memory.length = l.hist.length := by rw [← h.hist]; simp
    have := h.inv.hw
    exact ⟨s, rfl, h.delay, by unfold LinearDelay.getMaxDelay; rw [uSub_ok (by omega), hlen], h.out⟩
  | cons op ops ih =>
    intro s l h hN ha
    have h1 := LinearDelay.step_models (b := b) hsz hp h hN (ha op (by simp))
    unfold SeamLinear.run
    cases hst : l.step place op with
    | none =>
      rw [hst] at h1
      show s.run b (op :: ops) = .error .panic
      simp only [LinearDelay.run, h1]
      rfl
    | some r =>
      obtain ⟨l', o⟩ := r
      rw [hst] at h1
      obtain ⟨s', h2, h3, h4⟩ := h1
      have h5 := ih h3 h4 (fun op h => ha op (by simp [h]))
      simp only [LinearDelay.run, h2, Res.ok_bind]
      cases hl : l'.run place ops with
      | none =>
        rw [hl] at h5
        have h5' : s'.run b ops = .error .panic := h5
        rw [h5']
        rfl
      | some q =>
        rw [hl] at h5
        obtain ⟨s2, h6, h7⟩ := h5
        rw [h6]
        exact ⟨s2, rfl, h7⟩

theorem LinearDelay.new_models [Target] {place : Placement D T} {N : ℕ} (hp : PlacedBy b N place) {m : ℕ} (hm : Allocatable T m)
    (hN : m < N) (d : D) : ∃ s : LinearDelay D T, LinearDelay.new b d m = .ok s ∧ s.Models (SeamLinear.new place d m) := by
  have hm' := hm
  unfold Allocatable at hm'
  have hlen : m + 1 ≤ isizeMax := le_isizeMax_of_mul (size_pos (T := T)) hm'
  let s0 : LinearDelay D T :=
    { memory := List.replicate (m + 1) zero, output := zero, read_ptr := 0, write_ptr := 0, delay := zero,
      do_next_out := true, next_out := zero, alpha := zero, om_alpha := zero }
  have hi0 : s0.WInv := ⟨by simp [s0], by simpa [s0] using hm'⟩
  have hl0 : s0.memory.length = m + 1 := by simp [s0]
  obtain ⟨⟨s', h1, h2, h3, h4, h5⟩, h6⟩ := hp s0 d hi0 (by omega)
  obtain ⟨f1, f2, f3, f4, f5⟩ := LinearDelay.setDelay_frame h1
  refine ⟨s', ?_, ⟨by rw [f1, f2]; exact hi0.hw, by rw [f1]; exact hi0.cap⟩, ?_, ?_, ?_, ?_, ?_, f2, fun _ => f4,
    (fun v hv => by cases hv), f3⟩
  · unfold LinearDelay.new
    rw [uAdd_ok (by have := isizeMax_lt; omega), Res.ok_bind]
    unfold vecNew
    rw [if_pos hm', Res.ok_bind]
    rw [hl0, Nat.add_sub_cancel] at h6
    exact h6.trans h1
  · simpa [SeamLinear.new, SeamLinear.set, s0] using h3
  · show histOf s'.memory s'.write_ptr = _
    rw [f1, f2, histOf_replicate]; rfl
  · simpa [SeamLinear.new, SeamLinear.set, s0] using h2
  · simpa [SeamLinear.new, SeamLinear.set, s0] using h4
  · simpa [SeamLinear.new, SeamLinear.set, s0] using h5

/-! ## Exact arithmetic -/

theorem placedBy_exact [Target] : PlacedBy b usizeMod exactPlace := by
  intro s d hi _
  obtain ⟨s', h1, ht, hd⟩ := LinearDelay.setDelay_real (b := b) hi d
  refine ⟨⟨s', h1, hd, ?_, ?_, ?_⟩, ?_⟩
  · have := ht.eff; rw [hd] at this; exact this
  · have := ht.alpha; rw [hd] at this; exact this
  · have := ht.om_alpha; rw [ht.alpha, hd] at this; exact this
  · have hidem : clipDelay (clipDelay d (ofUsize (s.memory.length - 1))) (ofUsize (s.memory.length - 1) : ℝ) =
        clipDelay d (ofUsize (s.memory.length - 1)) := by
      rw [real_ofUsize, clipDelay_real _ _ (by positivity), clipDelay_real _ _ (by positivity)]
      have : max 0 (min d ((s.memory.length - 1 : ℕ) : ℝ)) ≤ (s.memory.length - 1 : ℕ) :=
        max_le (by positivity) (min_le_right _ _)
      rw [min_eq_left this, max_eq_right (le_max_left _ _)]
    unfold LinearDelay.setDelay
    rw [uSub_ok (by have := hi.hw; omega), Res.ok_bind, Res.ok_bind]
    simp only [hidem]

/-- **C77.** In exact arithmetic every sequence of calls on a new line, with growth, pending `next_out` values and arbitrary
tap arguments, returns exactly what the abstract interpolating line returns, panics exactly where it does, and the getters
then agree. -/
theorem C77_linearDelay_complete [Target] {m : ℕ} (hm : Allocatable ℝ m) (d : ℝ) :
    ∃ s : LinearDelay ℝ ℝ, LinearDelay.new b d m = .ok s ∧ ∀ ops : List (LinOp ℝ ℝ), (∀ op ∈ ops, op.Args usizeMod) →
      Agrees b (s.run b ops) ((SeamLinear.new exactPlace d m).run exactPlace ops) := by
  have hlen : m + 1 ≤ isizeMax := le_isizeMax_of_mul (size_pos (T := ℝ)) hm
  obtain ⟨s, h1, h2⟩ := LinearDelay.new_models (b := b) placedBy_exact hm (by have := target; omega) d
  refine ⟨s, h1, fun ops ha => LinearDelay.run_models (b := b) (by simp [FloatOps.size]) placedBy_exact h2 ?_ ha⟩
  have := target
  simp [SeamLinear.new, SeamLinear.set]; omega

/-- Non-vacuity: delay 1/2 of maximum 1; `next_out` before the first sample announces silence, which then replaces the first
output; growth follows, and an out-of-range tap panics. -/
example [Target] : (∀ op ∈ ([.nextOut, .process 4, .process 2, .setMaxDelay 3] : List (LinOp ℝ ℝ)), op.Args usizeMod) ∧
    ((SeamLinear.new exactPlace (1 / 2) 1).run exactPlace [.nextOut, .process 4, .process 2, .setMaxDelay 3]).map Prod.snd =
      some [.sample 0, .sample 0, .sample 3, .unit] ∧
    (SeamLinear.new exactPlace (1 / 2) 1).run exactPlace [.process 4, .tapOut 7] = none := by
  have hc : ⌈(1 / 2 : ℝ)⌉₊ = 1 := by rw [Nat.ceil_eq_iff (by norm_num)]; norm_num
  have hp : ∀ w, exactPlace w 2 (1 / 2) = (1 / 2, 1, 1 / 2) := by
    intro w
    unfold exactPlace
    have : max (0 : ℝ) (min (1 / 2) ((2 - 1 : ℕ) : ℝ)) = 1 / 2 := by norm_num
    simp only [this, hc]
    norm_num
  have ht := target
  refine ⟨?_, ?_, ?_⟩
  · simp [LinOp.Args, Allocatable, FloatOps.size]; omega
  · simp only [SeamLinear.new, SeamLinear.set, List.length_replicate, Nat.reduceAdd, hp, SeamLinear.run, SeamLinear.step,
      SeamLinear.mix]
    simp [List.replicate, FloatOps.zero, FloatOps.one]
    norm_num
  · simp only [SeamLinear.new, SeamLinear.set, List.length_replicate, Nat.reduceAdd, hp, SeamLinear.run, SeamLinear.step,
      SeamLinear.mix]
    simp [List.replicate, tapOf, show ¬ usizeMod ≤ 8 by omega]

end Rasp
