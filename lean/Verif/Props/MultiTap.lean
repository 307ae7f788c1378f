import Verif.Spec.MultiTap
import Verif.Props.Delay
import Verif.Props.Taps
import Verif.Props.LinearReal
import Mathlib.Data.List.GetD
import Mathlib.Algebra.BigOperators.Group.List.Basic

/-! # C116: several taps make a finite impulse response -/

namespace Rasp
open FloatOps

section gather
variable {T : Type} [FloatOps T] {b : Build}

/-- The line after `n` samples of `x`. -/
private theorem hist_process {m : ℕ} {x : ℕ → T} {n : ℕ} {h : List T} (hl : h.length = m + 1)
    (hh : ∀ k ≤ m, h.getD k zero = past x n k) :
    (x n :: h.dropLast).length = m + 1 ∧ ∀ k ≤ m, (x n :: h.dropLast).getD k zero = past x (n + 1) k := by
  refine ⟨by simp [hl], ?_⟩
  intro k hk
  cases k with
  | zero => simp [past]
  | succ k =>
    have h1 := hh k (by omega)
    have h2 : k < h.dropLast.length := by rw [List.length_dropLast, hl]; omega
    rw [List.getD_cons_succ, List.getD_eq_getElem _ _ h2, List.getElem_dropLast,
      ← List.getD_eq_getElem (d := zero) h (by omega), h1]
    unfold past
    by_cases hkn : k < n
    · rw [if_pos hkn, if_pos (by omega)]; congr 1; omega
    · rw [if_neg hkn, if_neg (by omega)]

private theorem past_succ_lag (x : ℕ → T) (n k : ℕ) : past x (n + 1) k = lag x k n := by
  unfold past lag
  by_cases hk : k ≤ n
  · rw [if_pos hk, if_pos (by omega)]; congr 1
  · rw [if_neg hk, if_neg (by omega)]

/-- The loop over the taps, when each tap reads the delayed sample. -/
private theorem gatherTaps_eq {σ : Type} [Processor σ T] [TappableDelayLine σ T] {s : σ} {x : ℕ → T} {n : ℕ}
    {taps : List (T × ℕ)} (h : ∀ p ∈ taps, TappableDelayLine.tapOut b s p.2 = .ok (lag x p.2 n)) (acc : T) :
    gatherTaps b s taps acc = .ok (taps.foldl (fun acc p => acc +. p.1 *. lag x p.2 n) acc) := by
  induction taps generalizing acc with
  | nil => rfl
  | cons p taps ih =>
    simp only [gatherTaps, h p (by simp), Res.ok_bind, List.foldl_cons]
    exact ih (fun q hq => h q (by simp [hq])) _

/-- **C116**, reading: after `new(d, m)`, for any `d`, any weights and any taps up to `m`, reading the taps of a `Delay`
after every sample never panics and computes the finite impulse response, bit for bit in list order. -/
theorem C116_delay_gather [Target] {d m : ℕ} (hm : Allocatable T m) (taps : List (T × ℕ))
    (ht : ∀ p ∈ taps, p.2 ≤ m) (x : ℕ → T) :
    ∃ s : Delay T, Delay.new b d m = .ok s ∧ Gathers b taps s x (fir taps x) := by
  obtain ⟨s, hn, hi, he, hd, hmem, hw, ho⟩ := Delay.new_spec (b := b) (d := d) hm
  refine ⟨s, hn, ?_⟩
  have h0 : s.Represents (Line.new d m) := by
    refine ⟨hi, he, ?_, hd, ho⟩
    show histOf s.memory s.write_ptr = _
    rw [hmem, histOf_replicate]; rfl
  -- states with the right history
  let P : ℕ → Delay T → Prop := fun n s => ∃ l : Line T, s.Represents l ∧ l.hist.length = m + 1 ∧
    ∀ k ≤ m, l.hist.getD k zero = past x n k
  have hP0 : P 0 s := by
    refine ⟨_, h0, by simp [Line.new], ?_⟩
    intro k hk
    simp [Line.new, past, List.getD_eq_getElem?_getD]
  have hstep : ∀ n s, P n s → ∃ s', gather b taps s (x n) = .ok (s', fir taps x n) ∧ P (n + 1) s' := by
    rintro n s ⟨l, hr, hl, hh⟩
    obtain ⟨s1, h1, h2⟩ := C08_step_refines (b := b) hr (op := .process (x n)) trivial
    simp only [Delay.step, Res.bind_ok] at h1
    obtain ⟨⟨s2, y⟩, h1, h3⟩ := h1
    have h4 := Prod.mk.inj (Except.ok.inj h3)
    obtain ⟨rfl, -⟩ := h4
    obtain ⟨hl', hh'⟩ := hist_process (x := x) (n := n) hl hh
    refine ⟨s2, ?_, _, h2, hl', hh'⟩
    have htap : ∀ p ∈ taps, TappableDelayLine.tapOut b s2 p.2 = .ok (lag x p.2 n) := by
      intro p hp
      obtain ⟨s3, h5, -⟩ := C08_step_refines (b := b) h2 (op := .tapOut p.2)
        (show p.2 < _ by have := ht p hp; show p.2 < (x n :: l.hist.dropLast).length; omega)
      simp only [Delay.step, Res.bind_ok] at h5
      obtain ⟨z, h5, h6⟩ := h5
      have h7 := (Prod.mk.inj (Except.ok.inj h6)).2
      have h8 : z = (x n :: l.hist.dropLast).getD p.2 zero := Obs.sample.inj h7
      rw [hh' _ (ht p hp), past_succ_lag] at h8
      rw [← h8]; exact h5
    show (s.process b (x n) >>= _) = _
    rw [h1, Res.ok_bind]
    simp only [gatherTaps_eq htap, Res.ok_bind, fir]
  choose f hf using hstep
  let st : ∀ n, { s // P n s } := fun n => Nat.rec ⟨s, hP0⟩ (fun n q => ⟨f n q.1 q.2, (hf n q.1 q.2).2⟩) n
  exact ⟨fun n => (st n).1, rfl, fun n => (hf n (st n).1 (st n).2).1⟩

variable {D : Type} [FloatOps D] [DelayTime D T]

private theorem lin_run_process [Target] {st : ℕ → LinearDelay D T} {x z : ℕ → T}
    (h : ∀ n, (st n).process b (x n) = .ok (st (n + 1), z n)) (n k : ℕ) :
    ∃ os, (st k).run b ((List.range n).map fun i => .process (x (k + i))) = .ok (st (k + n), os) := by
  induction n generalizing k with
  | zero => exact ⟨[], rfl⟩
  | succ n ih =>
    obtain ⟨os, ih⟩ := ih (k + 1)
    have e : ((List.range (n + 1)).map fun i => (LinOp.process (x (k + i)) : LinOp D T))
        = .process (x k) :: (List.range n).map fun i => .process (x (k + 1 + i)) := by
      rw [List.range_succ_eq_map]
      simp only [List.map_cons, List.map_map, Nat.add_zero, List.cons.injEq, true_and]
      apply List.map_congr_left
      intro i _
      simp only [Function.comp, Nat.succ_eq_add_one]
      congr 2; omega
    refine ⟨.sample (z k) :: os, ?_⟩
    rw [e]
    simp only [LinearDelay.run, LinearDelay.step, h, Res.ok_bind, ih]
    rw [show k + 1 + n = k + (n + 1) by omega]

private theorem reverse_range_getD (x : ℕ → T) (n k : ℕ) :
    (((List.range (n + 1)).map x).reverse).getD k zero = lag x k n := by
  unfold lag
  by_cases hk : k ≤ n
  · rw [if_pos hk, List.getD_eq_getElem _ _ (by simp; omega)]
    simp
  · rw [if_neg hk, List.getD_eq_default _ _ (by simp; omega)]

/-- The taps of a new `LinearDelay` after `n + 1` calls of `process`. -/
private theorem lin_taps [Target] {d : D} {m : ℕ} (hm : Allocatable T m) {s : LinearDelay D T}
    (hn : LinearDelay.new b d m = .ok s) {st : ℕ → LinearDelay D T} (h0 : st 0 = s) {x z : ℕ → T}
    (hz : ∀ n, (st n).process b (x n) = .ok (st (n + 1), z n)) (n : ℕ) {k : ℕ} (hk : k ≤ m) :
    (st (n + 1)).tapOut b k = .ok (lag x k n) := by
  obtain ⟨os, hr⟩ := lin_run_process hz (n + 1) 0
  rw [h0] at hr
  have e : (((List.range (n + 1)).map fun i => (LinOp.process (x (0 + i)) : LinOp D T)).filterMap LinOp.sample?)
      = (List.range (n + 1)).map x := by
    rw [List.filterMap_map]
    simp only [Function.comp_def, LinOp.sample?, Nat.zero_add]
    rw [List.filterMap_eq_map']
  have := C13_linearDelay_tapOut_reads_history hm hn (by
    intro op hop
    obtain ⟨i, -, rfl⟩ := List.mem_map.1 hop
    trivial) hr hk
  rw [e, reverse_range_getD] at this
  rw [show 0 + (n + 1) = n + 1 by omega] at this
  exact this

/-- **C116**, reading, `LinearDelay`, for every delay time `d`: the program runs exactly when `process` does not panic
(see C24), and then computes the same finite impulse response. -/
theorem C116_linear_gather [Target] {d : D} {m : ℕ} (hm : Allocatable T m) {taps : List (T × ℕ)}
    (ht : ∀ p ∈ taps, p.2 ≤ m) {s : LinearDelay D T} (hn : LinearDelay.new b d m = .ok s) (x y : ℕ → T) :
    Gathers b taps s x y ↔ (∃ z, Responds b s x z) ∧ y = fir taps x := by
  constructor
  · rintro ⟨st, h0, hs⟩
    have hp : ∀ n, ∃ z, (st n).process b (x n) = .ok (st (n + 1), z) ∧
        gatherTaps b (st (n + 1)) taps zero = .ok (y n) := by
      intro n
      have := hs n
      simp only [gather, Res.bind_ok] at this
      obtain ⟨⟨s1, z⟩, h1, w, h2, h3⟩ := this
      obtain ⟨rfl, rfl⟩ := Prod.mk.inj (Except.ok.inj h3)
      exact ⟨z, h1, h2⟩
    choose z hz using hp
    refine ⟨⟨z, st, h0, fun n => (hz n).1⟩, ?_⟩
    funext n
    have := (hz n).2
    rw [gatherTaps_eq (x := x) (n := n) fun p hp => lin_taps hm hn h0 (fun n => (hz n).1) n (ht p hp)] at this
    exact (Except.ok.inj this).symm
  · rintro ⟨⟨z, st, h0, hz⟩, rfl⟩
    refine ⟨st, h0, fun n => ?_⟩
    have h1 : Processor.process b (st n) (x n) = .ok (st (n + 1), z n) := hz n
    simp only [gather, h1, Res.ok_bind]
    rw [gatherTaps_eq (x := x) (n := n) fun p hp => lin_taps hm hn h0 hz n (ht p hp)]
    rfl

end gather

/-! ## Adding into the taps -/

section scatter
variable {b : Build}

/-- What a scattered sample has left at position `j`. -/
private noncomputable def left (taps : List (ℝ × ℕ)) (x : ℕ → ℝ) (n j : ℕ) : ℝ :=
  (taps.map fun p => if p.2 ≤ j then p.1 * past x n (j - p.2) else 0).sum

private theorem past_zero' (x : ℕ → ℝ) (k : ℕ) : past x 0 k = 0 := by simp [past]

private theorem past_step (x : ℕ → ℝ) (n k : ℕ) : past x (n + 1) (k + 1) = past x n k := by
  unfold past
  by_cases hk : k < n
  · rw [if_pos hk, if_pos (by omega)]; congr 1; omega
  · rw [if_neg hk, if_neg (by omega)]

/-- One more sample: what was left moves by one, and the new sample arrives at its taps. -/
private theorem left_succ (taps : List (ℝ × ℕ)) (x : ℕ → ℝ) (n j : ℕ) :
    left taps x (n + 1) j = (if j = 0 then 0 else left taps x n (j - 1))
      + (taps.map fun p => if p.2 = j then p.1 * x n else 0).sum := by
  unfold left
  induction taps with
  | nil => simp
  | cons p taps ih =>
    simp only [List.map_cons, List.sum_cons]
    rw [ih]
    rcases Nat.eq_zero_or_pos j with rfl | hj
    · simp only [Nat.le_zero, if_true]
      by_cases hp : p.2 = 0
      · simp [hp, past]
      · simp [hp]
    · rw [if_neg (show ¬j = 0 by omega), if_neg (show ¬j = 0 by omega)]
      obtain ⟨j, rfl⟩ : ∃ i, j = i + 1 := ⟨j - 1, by omega⟩
      simp only [Nat.add_sub_cancel]
      have key : (if p.2 ≤ j + 1 then p.1 * past x (n + 1) (j + 1 - p.2) else 0)
          = (if p.2 ≤ j then p.1 * past x n (j - p.2) else 0) + (if p.2 = j + 1 then p.1 * x n else 0) := by
        rcases Nat.lt_trichotomy p.2 (j + 1) with h | h | h
        · rw [if_pos (show p.2 ≤ j + 1 by omega), if_pos (show p.2 ≤ j by omega),
            if_neg (show ¬p.2 = j + 1 by omega), show j + 1 - p.2 = (j - p.2) + 1 by omega, past_step]
          ring
        · rw [if_pos (show p.2 ≤ j + 1 by omega), if_neg (show ¬p.2 ≤ j by omega), if_pos h, h, Nat.sub_self,
            show past x (n + 1) 0 = x n by simp [past]]
          ring
        · rw [if_neg (show ¬p.2 ≤ j + 1 by omega), if_neg (show ¬p.2 ≤ j by omega),
            if_neg (show ¬p.2 = j + 1 by omega)]
          ring
      rw [key]; ring

/-- The loop over the taps adds each weighted sample at its tap. -/
private theorem scatterTaps_spec [Target] {m : ℕ} {x : ℝ} {taps : List (ℝ × ℕ)} (ht : ∀ p ∈ taps, p.2 ≤ m)
    {s : Delay ℝ} {l : Line ℝ} (hr : s.Represents l) (hl : l.hist.length = m + 1) :
    ∃ s' l', scatterTaps b x taps s = .ok s' ∧ s'.Represents l' ∧ l'.hist.length = m + 1 ∧ l'.delay = l.delay ∧
      ∀ j ≤ m, l'.hist.getD j 0 = l.hist.getD j 0 + (taps.map fun p => if p.2 = j then p.1 * x else 0).sum := by
  induction taps generalizing s l with
  | nil => exact ⟨s, l, rfl, hr, hl, rfl, by simp⟩
  | cons p taps ih =>
    have hk : p.2 ≤ m := ht p (by simp)
    obtain ⟨s1, h1, h2⟩ := C08_step_refines (b := b) hr (op := .addTo (p.1 * x) p.2)
      (show p.2 < _ by omega)
    simp only [Delay.step, Res.bind_ok] at h1
    obtain ⟨⟨s2, y⟩, h1, h3⟩ := h1
    obtain ⟨rfl, -⟩ := Prod.mk.inj (Except.ok.inj h3)
    obtain ⟨s', l', h4, h5, h6, h7, h8⟩ := ih (fun q hq => ht q (by simp [hq])) h2 (by simp [Line.step, hl])
    refine ⟨s', l', ?_, h5, h6, h7, ?_⟩
    · show (s.addTo b (p.1 * x) p.2 >>= _) = _
      rw [h1, Res.ok_bind]; exact h4
    · intro j hj
      rw [h8 j hj]
      simp only [List.map_cons, List.sum_cons]
      have e : (l.step (.addTo (p.1 * x) p.2)).1.hist.getD j 0
          = l.hist.getD j 0 + (if p.2 = j then p.1 * x else 0) := by
        show (l.hist.set p.2 (l.hist.getD p.2 0 + p.1 * x)).getD j 0 = _
        rw [List.getD_eq_getElem _ _ (by simp; omega), List.getElem_set]
        split
        · rename_i h; subst h; rfl
        · rw [add_zero]; exact (List.getD_eq_getElem _ _ _).symm
      rw [e]; ring

/-- **C116**, adding: after `new(d, m)`, processing `v` and then adding `x` into taps `k` with weights `c` never
panics, and the output is `v` delayed by `min d m` plus, for each tap nearer than that, `c * x` delayed by the
difference. Taps at or beyond the delay are never heard. -/
theorem C116_delay_scatter [Target] {d m : ℕ} (hm : Allocatable ℝ m) (taps : List (ℝ × ℕ))
    (ht : ∀ p ∈ taps, p.2 ≤ m) (v x : ℕ → ℝ) :
    ∃ s : Delay ℝ, Delay.new b d m = .ok s ∧ Scatters b taps s v x fun n => lag v (min d m) n +
      (taps.map fun p => if p.2 < min d m then p.1 * lag x (min d m - p.2) n else 0).sum := by
  obtain ⟨s, hn, hi, he, hd, hmem, hw, ho⟩ := Delay.new_spec (b := b) (d := d) hm
  refine ⟨s, hn, ?_⟩
  have h0 : s.Represents (Line.new d m) := by
    refine ⟨hi, he, ?_, hd, ho⟩
    show histOf s.memory s.write_ptr = _
    rw [hmem, histOf_replicate]; rfl
  set e := min d m with hedef
  have hem : e ≤ m := by omega
  let P : ℕ → Delay ℝ → Prop := fun n s => ∃ l : Line ℝ, s.Represents l ∧ l.hist.length = m + 1 ∧ l.delay = e ∧
    ∀ j ≤ m, l.hist.getD j 0 = past v n j + left taps x n j
  have hP0 : P 0 s := by
    refine ⟨_, h0, by simp [Line.new], rfl, ?_⟩
    intro k hk
    have h1 : left taps x 0 k = 0 := by
      unfold left
      apply List.sum_eq_zero
      intro a ha
      obtain ⟨p, -, rfl⟩ := List.mem_map.1 ha
      rw [past_zero']; simp
    rw [h1, past_zero']
    show (List.replicate (m + 1) (0 : ℝ)).getD k 0 = 0 + 0
    rw [List.getD_eq_getElem _ _ (by simp; omega)]; simp
  have hstep : ∀ n s, P n s → ∃ s', scatter b taps s (v n) (x n) = .ok (s', lag v e n +
      (taps.map fun p => if p.2 < e then p.1 * lag x (e - p.2) n else 0).sum) ∧ P (n + 1) s' := by
    rintro n s ⟨l, hr, hl, hde, hh⟩
    obtain ⟨s1, h1, h2⟩ := C08_step_refines (b := b) hr (op := .process (v n)) trivial
    simp only [Delay.step, Res.bind_ok] at h1
    obtain ⟨⟨s2, y⟩, h1, h3⟩ := h1
    obtain ⟨rfl, hy⟩ := Prod.mk.inj (Except.ok.inj h3)
    have hy : y = (v n :: l.hist.dropLast).getD l.delay 0 := Obs.sample.inj hy
    have hl' : (l.step (.process (v n))).1.hist.length = m + 1 := by simp [Line.step, hl]
    have hh' : ∀ j ≤ m, (v n :: l.hist.dropLast).getD j 0
        = past v (n + 1) j + (if j = 0 then 0 else left taps x n (j - 1)) := by
      intro j hj
      cases j with
      | zero => simp [past]
      | succ j =>
        have h2 : j < l.hist.dropLast.length := by rw [List.length_dropLast, hl]; omega
        rw [List.getD_cons_succ, List.getD_eq_getElem _ _ h2, List.getElem_dropLast,
          ← List.getD_eq_getElem (d := (0 : ℝ)) l.hist (by omega), hh j (by omega), past_step]
        simp
    obtain ⟨s3, l3, h4, h5, h6, h7, h8⟩ := scatterTaps_spec (b := b) (x := x n) ht h2 hl'
    refine ⟨s3, ?_, l3, h5, h6, h7.trans hde, ?_⟩
    · show (s.process b (v n) >>= _) = _
      rw [h1, Res.ok_bind]
      simp only [h4, Res.ok_bind]
      congr 2
      rw [hy, hde, hh' e hem, past_succ_lag]
      congr 1
      by_cases h0 : e = 0
      · rw [if_pos h0]
        symm
        apply List.sum_eq_zero
        intro a ha
        obtain ⟨p, -, rfl⟩ := List.mem_map.1 ha
        rw [if_neg (by omega)]
      · rw [if_neg h0]
        unfold left
        congr 1
        apply List.map_congr_left
        intro p _
        by_cases hp : p.2 < e
        · rw [if_pos hp, if_pos (by omega)]
          congr 1
          rw [← past_succ_lag, show e - p.2 = (e - 1 - p.2) + 1 by omega, past_step]
        · rw [if_neg hp, if_neg (by omega)]
    · intro j hj
      rw [h8 j hj, left_succ]
      have := hh' j hj
      show (v n :: l.hist.dropLast).getD j 0 + _ = _
      rw [this]; ring
  choose f hf using hstep
  let st : ∀ n, { s // P n s } := fun n => Nat.rec ⟨s, hP0⟩ (fun n q => ⟨f n q.1 q.2, (hf n q.1 q.2).2⟩) n
  exact ⟨fun n => (st n).1, rfl, fun n => (hf n (st n).1 (st n).2).1⟩

private theorem fir_sum (taps : List (ℝ × ℕ)) (x : ℕ → ℝ) (n : ℕ) :
    fir taps x n = (taps.map fun p => p.1 * lag x p.2 n).sum := by
  unfold fir
  have : ∀ acc : ℝ, taps.foldl (fun acc p => acc +. p.1 *. lag x p.2 n) acc
      = acc + (taps.map fun p => p.1 * lag x p.2 n).sum := by
    induction taps with
    | nil => simp
    | cons p taps ih =>
      intro acc
      simp only [List.foldl_cons, List.map_cons, List.sum_cons]
      rw [ih]
      show acc + p.1 * _ + _ = _
      ring
  exact (this _).trans (zero_add _)

/-- **C116**, both ways: with silence going in, adding `x` into taps `k < d` of a line of delay `d` is the transposed
form of the same filter: it gives what reading taps `d - k` gives. -/
theorem C116_transposed [Target] {d m : ℕ} (hm : Allocatable ℝ m) (hd : d ≤ m) (taps : List (ℝ × ℕ))
    (ht : ∀ p ∈ taps, p.2 < d) (x : ℕ → ℝ) :
    ∃ (s : Delay ℝ) (y : ℕ → ℝ), Delay.new b d m = .ok s ∧ Scatters b taps s (fun _ => 0) x y ∧
      Gathers b (taps.map fun p => (p.1, d - p.2)) s x y := by
  obtain ⟨s, hn, hs⟩ := C116_delay_scatter (b := b) (d := d) hm taps (fun p hp => by have := ht p hp; omega)
    (fun _ => 0) x
  obtain ⟨s', hn', hg⟩ := C116_delay_gather (b := b) (d := d) hm (taps.map fun p => (p.1, d - p.2))
    (fun p hp => by obtain ⟨q, -, rfl⟩ := List.mem_map.1 hp; show d - q.2 ≤ m; omega) x
  rw [hn] at hn'
  cases hn'
  refine ⟨s, _, hn, hs, ?_⟩
  convert hg using 1
  funext n
  rw [fir_sum, min_eq_left hd, List.map_map]
  have : lag (fun _ => (0 : ℝ)) d n = 0 := by unfold lag; split <;> rfl
  rw [this, zero_add]
  congr 1
  apply List.map_congr_left
  intro p hp
  rw [if_pos (ht p hp)]; rfl

/-- A tap at or beyond the delay is not heard: writing there never changes an output. -/
theorem C116_unheard [Target] {d m : ℕ} (hm : Allocatable ℝ m) (hd : d ≤ m) (taps : List (ℝ × ℕ))
    (ht : ∀ p ∈ taps, d ≤ p.2 ∧ p.2 ≤ m) (v x : ℕ → ℝ) :
    ∃ s : Delay ℝ, Delay.new b d m = .ok s ∧ Scatters b taps s v x (lag v d) := by
  obtain ⟨s, hn, hs⟩ := C116_delay_scatter (b := b) (d := d) hm taps (fun p hp => (ht p hp).2) v x
  refine ⟨s, hn, ?_⟩
  convert hs using 1
  funext n
  rw [min_eq_left hd, List.sum_eq_zero, add_zero]
  intro a ha
  obtain ⟨p, hp, rfl⟩ := List.mem_map.1 ha
  rw [if_neg (by have := (ht p hp).1; omega)]

/-- Two taps of a line of delay 3: `0.5` at tap 0 and `0.25` at tap 2 give `0.5 x[n-3] + 0.25 x[n-1]`; reading taps 3
and 1 gives the same. -/
example [Target] (hm : Allocatable ℝ 3) (x : ℕ → ℝ) :
    ∃ (s : Delay ℝ) (y : ℕ → ℝ), Delay.new b 3 3 = .ok s ∧
      Scatters b [((1 / 2 : ℝ), 0), (1 / 4, 2)] s (fun _ => 0) x y ∧
      Gathers b [((1 / 2 : ℝ), 3), (1 / 4, 1)] s x y :=
  C116_transposed hm le_rfl _ (by simp) x

/-- A `LinearDelay` of delay 2.5 with taps at 0 and 3. -/
example [Target] (hm : Allocatable ℝ 3) (x : ℕ → ℝ) (hx : ∀ n, |x n| ≤ 1) :
    ∃ s : LinearDelay ℝ ℝ, LinearDelay.new b 2.5 3 = .ok s ∧
      Gathers b [((1 / 2 : ℝ), 0), (1 / 4, 3)] s x (fir [((1 / 2 : ℝ), 0), (1 / 4, 3)] x) := by
  obtain ⟨s, y, hn, hr, -⟩ := C25_no_overshoot (b := b) hm 2.5 hx
  exact ⟨s, hn, (C116_linear_gather hm (by simp) hn x _).2 ⟨⟨y, hr⟩, rfl⟩⟩

end scatter

end Rasp
