import Verif.Props.Taps

/-! # C18, C19: growing and clearing a `Delay` -/

namespace Rasp
open FloatOps
variable {T : Type} [FloatOps T] {b : Build}

/-! ## C18 -/

/-- What `set_max_delay` does to a valid line that it grows. -/
theorem Delay.grow_spec [Target] {s : Delay T} (hi : s.Inv) {e m : ℕ} (he : s.Eff e) (hl : s.memory.length ≤ m)
    (hm : Allocatable T m) :
    ∃ s', s.setMaxDelay b m = .ok s' ∧ s'.Inv ∧ s'.memory.length = m + 1 ∧ s'.delay = s.delay ∧
      s'.Eff (if e ≤ s.write_ptr then e else e + (m + 1 - s.memory.length)) ∧
      s'.hist = s.hist.take s.write_ptr ++ List.replicate (m + 1 - s.memory.length) zero
        ++ s.hist.drop s.write_ptr := by
  obtain ⟨s', h1, hi'⟩ := Delay.setMaxDelay_inv (b := b) hi hm
  have hg := Delay.setMaxDelay_grow (b := b) (s := s) hl hm
  rw [h1] at hg
  cases hg
  have h2 := he.1
  have h3 := he.2
  have hw := hi.hw
  refine ⟨_, h1, hi', by simp; omega, rfl, ⟨?_, ?_⟩, ?_⟩
  · simp only [List.length_append, List.length_replicate]; split <;> omega
  · simp only [List.length_append, List.length_replicate]
    rw [h3]; split
    · rfl
    · rw [if_neg (by omega)]; omega
  · have := histOf_append hi.hw (List.replicate (m + 1 - s.memory.length) (zero : T))
    rw [List.reverse_replicate] at this
    exact this

/-- State after `n ≤ m` samples through a new line. -/
theorem Delay.state_before_wrap [Target] {d m : ℕ} (hm : Allocatable T m) (x : ℕ → T) {s : Delay T}
    (hnew : Delay.new b d m = .ok s) : ∀ n, n ≤ m → ∀ (s1 : Delay T) (ys : List T),
      Steps b s ((List.range n).map x) ys s1 →
      s1.Inv ∧ s1.Eff (min d m) ∧ s1.memory.length = m + 1 ∧ s1.write_ptr = n ∧ s1.delay = min d m ∧
      ∀ k, k ≤ m → s1.hist[k]? = some (past x n k) := by
  intro n
  induction n with
  | zero =>
    intro _ s1 ys hst
    obtain ⟨s0, hn', hi, he, hd, hmem, hw, -⟩ := Delay.new_spec (b := b) (d := d) hm
    rw [hnew] at hn'
    cases hn'
    cases hst
    refine ⟨hi, he, by rw [hmem]; simp, hw, hd, fun k hk => ?_⟩
    unfold Delay.hist past
    rw [hmem, histOf_replicate, List.getElem?_replicate, if_pos (by omega), if_neg (by omega)]
  | succ n ih =>
    intro hn s1 ys hst
    rw [List.range_succ, List.map_append] at hst
    obtain ⟨ys1, ys2, s0, -, h1, h2⟩ := hst.split
    obtain ⟨hi, he, hl, hw, hd, hh⟩ := ih (by omega) s0 ys1 h1
    cases h2 with
    | cons hp ht =>
      cases ht
      obtain ⟨y, -, hp'⟩ := Delay.process_eq (b := b) hi (x n)
      obtain ⟨s3, y3, hp3, hi3, he3, hh3, -, hd3, -, hl3⟩ := Delay.process_spec (b := b) hi he (x n)
      have hpe : s0.process b (x n) = _ := hp
      rw [hpe] at hp3
      cases hp3
      rw [hp'] at hpe
      cases hpe
      refine ⟨hi3, he3, hl3.trans hl, ?_, hd3.trans hd, fun k hk => ?_⟩
      · show (s0.write_ptr + 1) % s0.memory.length = n + 1
        rw [hw, hl]; exact Nat.mod_eq_of_lt (by omega)
      · rw [hh3]
        cases k with
        | zero => simp [past]
        | succ k =>
          rw [List.getElem?_cons_succ, List.getElem?_dropLast, if_pos (by simp; omega), hh k (by omega)]
          unfold past
          congr 1
          by_cases hkn : k < n
          · rw [if_pos hkn, if_pos (by omega)]; congr 1; omega
          · rw [if_neg hkn, if_neg (by omega)]

/-- **C18**, the harmless case: if at least `get_delay` and at most the old maximum of samples were processed, then after
`set_max_delay` the stream continues delayed by `get_delay` and the taps keep the recent history. Outside this case it is
false (`C18_fresh_growth_delays_more`, `C18_false_after_wrap`); the exact effect in all cases is `C18_growth_effect`. -/
theorem C18_growth_before_wrap [Target] {d m m' n : ℕ} (hm : Allocatable T m) (hm' : Allocatable T m')
    (hdn : min d m ≤ n) (hn : n ≤ m) (x : ℕ → T) {s s1 : Delay T} {ys : List T} (hnew : Delay.new b d m = .ok s)
    (hst : Steps b s ((List.range n).map x) ys s1) :
    ∃ s2, s1.setMaxDelay b m' = .ok s2 ∧ s2.getDelay = min d m ∧
      (∀ k, k ≤ max m m' → s2.tapOut b k = .ok (past x n k)) ∧
      Responds b s2 (fun i => x (n + i)) (fun i => x (n + i - min d m)) := by
  obtain ⟨hi, he, hl, hw, hd, hh⟩ := Delay.state_before_wrap hm x hnew n hn s1 ys hst
  obtain ⟨s2, hs2, hi2, he2, hd2, hl2, hh2⟩ : ∃ s2, s1.setMaxDelay b m' = .ok s2 ∧ s2.Inv ∧ s2.Eff (min d m)
      ∧ s2.delay = min d m ∧ s2.memory.length = max m m' + 1 ∧
      ∀ k, k ≤ max m m' → s2.hist[k]? = some (past x n k) := by
    by_cases hc : m' < s1.memory.length
    · have hmx : max m m' = m := by omega
      rw [hmx]
      exact ⟨s1, Delay.setMaxDelay_small hc, hi, he, hd, hl, hh⟩
    · have hmx : max m m' = m' := by omega
      rw [hmx]
      obtain ⟨s2, h1, hi2, hl2, hd2, he2, hh2⟩ := Delay.grow_spec (b := b) hi he (by omega) hm'
      rw [hw, if_pos hdn] at he2
      refine ⟨s2, h1, hi2, he2, hd2.trans hd, hl2, fun k hk => ?_⟩
      rw [hh2, hw, List.append_assoc]
      have hlen : (s1.hist.take n).length = n := by simp; omega
      by_cases hkn : k < n
      · rw [List.getElem?_append_left (by omega), List.getElem?_take, if_pos hkn, hh k (by omega)]
      · rw [List.getElem?_append_right (by omega), hlen]
        have hz : past x n k = zero := if_neg hkn
        rw [hz]
        by_cases hkm : k - n < m' + 1 - s1.memory.length
        · rw [List.getElem?_append_left (by simpa using hkm), List.getElem?_replicate, if_pos hkm]
        · rw [List.getElem?_append_right (by simpa using hkm), List.length_replicate, List.getElem?_drop,
            hh _ (by omega)]
          congr 1
          exact if_neg (by omega)
  refine ⟨s2, hs2, hd2, fun k hk => ?_, ?_⟩
  · obtain ⟨y, h1, h2⟩ := Delay.tapOut_spec (b := b) hi2 (k := k) (by omega)
    rw [hh2 k hk] at h2
    rw [h1, ← Option.some.inj h2]
  · have hr := Delay.responds (b := b) hi2 he2 (fun i => x (n + i))
    convert hr using 1
    funext i
    unfold delayedBy
    split
    · congr 1; omega
    · rw [getD_of_get? (hh2 _ (by omega))]
      unfold past
      rw [if_pos (by omega)]
      congr 1; omega

/-- Non-vacuity: delay 2 of maximum 5, 4 samples processed. -/
example : min 2 5 ≤ 4 ∧ 4 ≤ 5 := by omega

/-- The write position counts the processed samples. -/
theorem Delay.run_write_ptr [Target] {n : ℕ} : ∀ (ops : List (DelayOp T)) (s s' : Delay T) (os : List (Obs T)), s.Inv →
    s.memory.length = n → (∀ op ∈ ops, op.InRange n) → s.run b ops = .ok (s', os) →
    s'.write_ptr = (s.write_ptr + (ops.filterMap DelayOp.sample?).length) % n := by
  intro ops
  induction ops with
  | nil =>
    intro s s' os hi hl _ hr
    simp only [Delay.run] at hr
    cases hr
    have := hi.hw
    simp [Nat.mod_eq_of_lt (hl ▸ this)]
  | cons op ops ih =>
    intro s s' os hi hl ho hr
    simp only [Delay.run, Res.bind_ok] at hr
    obtain ⟨⟨s1, o⟩, h1, ⟨s2, os2⟩, h2, h3⟩ := hr
    cases h3
    have ho' : ∀ op ∈ ops, op.InRange n := fun o h => ho o (by simp [h])
    have ho1 := ho op (by simp)
    cases op with
    | process x =>
      obtain ⟨y, -, hp⟩ := Delay.process_eq (b := b) hi x
      have hw := hi.hw
      simp only [Delay.step, hp, Res.ok_bind] at h1
      cases h1
      have hpos : 0 < s.memory.length := by omega
      have := ih _ _ _ ⟨by simpa using Nat.mod_lt _ hpos, by simpa using Nat.mod_lt _ hpos, by simpa using hi.cap⟩
        (by simpa using hl) ho' h2
      rw [this]
      show ((s.write_ptr + 1) % s.memory.length + _) % n = _
      rw [hl, Nat.mod_add_mod]
      congr 1
      rw [show List.filterMap DelayOp.sample? (.process x :: ops) = x :: List.filterMap DelayOp.sample? ops from rfl]
      simp only [List.length_cons]; omega
    | setDelay d =>
      obtain ⟨s3, hp, hi3, -, -, hm3, hw3, -⟩ := Delay.setDelay_spec (b := b) hi.hw hi.cap d
      simp only [Delay.step, hp, Res.ok_bind] at h1
      cases h1
      have := ih _ _ _ hi3 (by rw [hm3]; exact hl) ho' h2
      rw [this, hw3]; rfl
    | setMaxDelay k =>
      simp only [Delay.step, Delay.setMaxDelay_small (show k < s.memory.length by rw [hl]; exact ho1),
        Res.ok_bind] at h1
      cases h1
      exact ih _ _ _ hi hl ho' h2
    | getDelay =>
      simp only [Delay.step] at h1
      cases h1
      exact ih _ _ _ hi hl ho' h2
    | lastOut =>
      simp only [Delay.step] at h1
      cases h1
      exact ih _ _ _ hi hl ho' h2
    | getMaxDelay =>
      simp only [Delay.step, Res.bind_ok] at h1
      obtain ⟨_, _, h1⟩ := h1
      cases h1
      exact ih _ _ _ hi hl ho' h2
    | nextOut =>
      simp only [Delay.step, Res.bind_ok] at h1
      obtain ⟨_, _, h1⟩ := h1
      cases h1
      exact ih _ _ _ hi hl ho' h2
    | tapOut k =>
      simp only [Delay.step, Res.bind_ok] at h1
      obtain ⟨_, _, h1⟩ := h1
      cases h1
      exact ih _ _ _ hi hl ho' h2
    | tapIn v k =>
      obtain ⟨s3, hp, hi3, -, -, -, -, hw3, hl3⟩ :=
        Delay.tapIn_spec (b := b) hi (show k < s.memory.length by rw [hl]; exact ho1) v
      simp only [Delay.step, hp, Res.ok_bind] at h1
      cases h1
      have := ih _ _ _ hi3 (by omega) ho' h2
      rw [this, hw3]; rfl
    | addTo v k =>
      obtain ⟨s3, y, -, hp, hi3, -, -, -, -, hw3, hl3⟩ :=
        Delay.addTo_spec (b := b) hi (show k < s.memory.length by rw [hl]; exact ho1) v
      simp only [Delay.step, hp, Res.ok_bind] at h1
      cases h1
      have := ih _ _ _ hi3 (by omega) ho' h2
      rw [this, hw3]; rfl
    | clear =>
      simp only [Delay.step] at h1
      cases h1
      obtain ⟨hi3, -⟩ := Delay.clear_spec hi
      have := ih s.clear _ _ hi3 (by simpa [Delay.clear] using hl) ho' h2
      exact this

/-- **C18**, the exact effect of the first growth, after any history: with `w` the number of processed samples modulo
`m + 1`, zeros are spliced into the line at tap `w`; the actual delay is `get_delay` if that is at most `w`, and
`get_delay + (m' - m)` otherwise. -/
theorem C18_growth_effect [Target] {d m m' : ℕ} (hm' : Allocatable T m') (hmm : m < m')
    {ops : List (DelayOp T)} {s s1 : Delay T} {os : List (Obs T)} (hnew : Delay.new b d m = .ok s)
    (hops : ∀ op ∈ ops, op.InRange (m + 1)) (hrun : s.run b ops = .ok (s1, os)) {h : List T} (hst : s1.Stores b h) :
    let w := (ops.filterMap DelayOp.sample?).length % (m + 1)
    let h' := h.take w ++ List.replicate (m' - m) zero ++ h.drop w
    ∃ s2, s1.setMaxDelay b m' = .ok s2 ∧ s2.getDelay = s1.getDelay ∧ s2.Stores b h' ∧
      ∀ x, Responds b s2 x
        (delayedBy (if s1.getDelay ≤ w then s1.getDelay else s1.getDelay + (m' - m)) h' x) := by
  have hm : Allocatable T m := by
    unfold Allocatable at *
    exact (Nat.mul_le_mul_right _ (by omega)).trans hm'
  obtain ⟨s0, s1', hn0, hr0, hrep⟩ := C08_delay_refines_shift_register (b := b) (d := d) hm ops hops
  obtain ⟨s0', hn0', hi0, -, -, hmem0, hw0, -⟩ := Delay.new_spec (b := b) (d := d) hm
  rw [hn0] at hnew hn0'
  cases hnew
  cases hn0'
  have hwp := Delay.run_write_ptr ops s s1 os hi0 (by rw [hmem0]; simp) hops hrun
  rw [hr0] at hrun
  cases hrun
  obtain ⟨hi, he, hh, hd, ho⟩ := hrep
  obtain rfl := hst.eq hi.stores
  have hl : s1.memory.length = m + 1 := by
    have key : ∀ (ops : List (DelayOp T)) (l : Line T), l.hist.length = m + 1 →
        (l.run ops).1.hist.length = m + 1 := by
      intro ops
      induction ops with
      | nil => intro l hl; exact hl
      | cons op ops ih =>
        intro l hl
        exact ih _ (by rw [Line.step_length l (List.ne_nil_of_length_pos (by omega))]; exact hl)
    rw [← Delay.hist_length, hh]
    exact key ops _ (by simp [Line.new])
  rw [hw0, Nat.zero_add] at hwp
  obtain ⟨s2, h1, hi2, hl2, hd2, he2, hh2⟩ := Delay.grow_spec (b := b) hi he (by omega) hm'
  rw [hl, show m' + 1 - (m + 1) = m' - m by omega, hwp] at hh2
  rw [hl, show m' + 1 - (m + 1) = m' - m by omega, hwp, ← hd] at he2
  refine ⟨s2, h1, hd2, ?_, fun x => ?_⟩
  · rw [← hh2]; exact hi2.stores
  · rw [← hh2]; exact Delay.responds hi2 he2 x

/-- **C18 is false on a fresh line**: if the maximum of a new line of delay `1 ≤ d ≤ m` is raised to `m' > m`,
`get_delay` still says `d` but every stream is delayed by `d + (m' - m)`. -/
theorem C18_fresh_growth_delays_more [Target] {d m m' : ℕ} (hm' : Allocatable T m') (hmm : m < m') (hd : 1 ≤ d) (hdm : d ≤ m)
    {s : Delay T} (hnew : Delay.new b d m = .ok s) :
    ∃ s2, s.setMaxDelay b m' = .ok s2 ∧ s2.getDelay = d ∧
      ∀ x, Responds b s2 x (fun n => if d + (m' - m) ≤ n then x (n - (d + (m' - m))) else zero) := by
  have hm : Allocatable T m := by
    unfold Allocatable at *
    exact (Nat.mul_le_mul_right _ (by omega)).trans hm'
  obtain ⟨s0, hn0, hi0, -, hd0, hmem0, hw0, -⟩ := Delay.new_spec (b := b) (d := d) hm
  rw [hn0] at hnew
  cases hnew
  have hd1 : s.delay = d := by omega
  have hst : s.Stores b (List.replicate (m + 1) zero) := by
    have := hi0.stores (b := b)
    unfold Delay.hist at this
    rwa [hmem0, histOf_replicate] at this
  obtain ⟨s2, h1, h2, -, h4⟩ := C18_growth_effect (b := b) (ops := []) hm' hmm hn0 (by simp) rfl hst
  refine ⟨s2, h1, h2.trans hd1, fun x => ?_⟩
  have h5 := h4 x
  have hz : s.getDelay = d := hd1
  simp only [List.filterMap_nil, List.length_nil, Nat.zero_mod, hz, if_neg (show ¬ d ≤ 0 by omega), List.take_zero,
    List.nil_append, List.drop_zero, List.replicate_append_replicate] at h5
  convert h5 using 1
  funext n
  unfold delayedBy
  split
  · rfl
  · rw [List.getD_eq_getElem?_getD, List.getElem?_replicate]; split <;> rfl

/-- **C18 is false after wrapping**: `new(1,1)`, process 1, 2, `set_max_delay(3)`, process 3, 4. The last output should
be 3 (`get_delay` is 1), it is 0. -/
theorem C18_false_after_wrap [t : Target] : ∃ s0 s1 s2 s3 : Delay ℝ, Delay.new ⟨true⟩ 1 1 = .ok s0 ∧
    Steps ⟨true⟩ s0 [1, 2] [0, 1] s1 ∧ s1.setMaxDelay ⟨true⟩ 3 = .ok s2 ∧ s2.getDelay = 1 ∧
    Steps ⟨true⟩ s2 [3, 4] [2, 0] s3 := by
  refine ⟨{ memory := [0, 0], output := 0, read_ptr := 1, write_ptr := 0, delay := 1 },
    { memory := [1, 2], output := 1, read_ptr := 1, write_ptr := 0, delay := 1 },
    { memory := [1, 2, 0, 0], output := 1, read_ptr := 1, write_ptr := 0, delay := 1 },
    { memory := [3, 4, 0, 0], output := 0, read_ptr := 3, write_ptr := 2, delay := 1 }, ?_, ?_, ?_, rfl, ?_⟩
  · rcases t with ⟨_ | _⟩ <;>
      simp [Delay.new, uAdd, usizeMod, vecNew, Delay.setDelay, uSub, isizeMax, isizeMod, usizeBits, FloatOps.size, List.replicate]
  · refine .cons (s' := { memory := [1, 0], output := 0, read_ptr := 0, write_ptr := 1, delay := 1 }) ?_
      (.cons ?_ (.nil _)) <;>
    rcases t with ⟨_ | _⟩ <;> simp [Processor.process, Delay.process, idxSet, uAdd, usizeMod, usizeBits, uRem, idx]
  · rcases t with ⟨_ | _⟩ <;>
      simp [Delay.setMaxDelay, uAdd, usizeMod, vecResize, isizeMax, isizeMod, usizeBits, FloatOps.size, List.replicate]
  · refine .cons (s' := { memory := [3, 2, 0, 0], output := 2, read_ptr := 2, write_ptr := 1, delay := 1 }) ?_
      (.cons ?_ (.nil _)) <;>
    rcases t with ⟨_ | _⟩ <;> simp [Processor.process, Delay.process, idxSet, uAdd, usizeMod, usizeBits, uRem, idx]

/-! ## C19 -/

/-- **C19.** After any history of a new line (without growth) and `clear`, the line is silent for `get_delay` samples
and then delays by `get_delay`; delay and maximum are kept. -/
theorem C19_clear_empties_delay [Target] {d m : ℕ} (hm : Allocatable T m) {ops : List (DelayOp T)} {s s1 : Delay T}
    {os : List (Obs T)} (hnew : Delay.new b d m = .ok s) (hops : ∀ op ∈ ops, op.InRange (m + 1))
    (hrun : s.run b ops = .ok (s1, os)) :
    s1.clear.getDelay = s1.getDelay ∧ s1.clear.getMaxDelay b = .ok m ∧
      ∀ x y, Responds b s1.clear x y ↔
        y = fun n => if s1.getDelay ≤ n then x (n - s1.getDelay) else zero := by
  obtain ⟨s0, s1', hn0, hr0, hrep⟩ := C08_delay_refines_shift_register (b := b) (d := d) hm ops hops
  rw [hn0] at hnew
  cases hnew
  rw [hr0] at hrun
  cases hrun
  obtain ⟨hi, he, hh, hd, ho⟩ := hrep
  have hl : s1.memory.length = m + 1 := by
    have key : ∀ (ops : List (DelayOp T)) (l : Line T), l.hist.length = m + 1 →
        (l.run ops).1.hist.length = m + 1 := by
      intro ops
      induction ops with
      | nil => intro l hl; exact hl
      | cons op ops ih =>
        intro l hl
        exact ih _ (by rw [Line.step_length l (List.ne_nil_of_length_pos (by omega))]; exact hl)
    rw [← Delay.hist_length, hh]
    exact key ops _ (by simp [Line.new])
  obtain ⟨hi2, hh2, he2⟩ := Delay.clear_spec hi
  refine ⟨rfl, ?_, fun x y => ?_⟩
  · simp only [Delay.getMaxDelay, Delay.clear, List.length_map, hl]
    exact uSub_ok (by omega)
  · have hr := Delay.responds (b := b) hi2 (he2 _ he) x
    rw [hh2, ← hd] at hr
    have hz : delayedBy s1.delay (List.replicate s1.memory.length zero) x =
        fun n => if s1.getDelay ≤ n then x (n - s1.getDelay) else zero := by
      funext n
      unfold delayedBy Delay.getDelay
      split
      · rfl
      · rw [List.getD_eq_getElem?_getD, List.getElem?_replicate]; split <;> rfl
    rw [hz] at hr
    exact ⟨fun h => h.unique hr, fun h => h ▸ hr⟩

end Rasp
