import Verif.Lemmas.Delay
import Verif.Props.Block

/-!
# C07–C12, C16–C19: the integer delay line

For an arbitrary sample type (bit for bit) and both build profiles. `Allocatable T m` says that `m + 1` samples are
within the allocation limit of `Vec`.
-/

namespace Rasp
open FloatOps
variable {T : Type} [FloatOps T] {b : Build}

/-! ## Stream behaviour -/

/-- Any valid line whose read position is `e` behind delays by `e`, replaying its contents first. -/
theorem Delay.responds [Target] {s : Delay T} (h : s.Inv) {e : ℕ} (he : s.Eff e) (x : ℕ → T) :
    Responds b s x (delayedBy e s.hist x) := by
  refine responds_of_inv (fun n s' => s'.Inv ∧ s'.Eff e ∧ s'.memory.length = s.memory.length ∧
    ∀ k, k < s.memory.length → s'.hist[k]? = some (if k < n then x (n - 1 - k) else s.hist.getD (k - n) zero))
    ⟨h, he, rfl, fun k hk => ?_⟩ ?_
  · rw [List.getElem?_eq_getElem (by simpa using hk)]
    simp [List.getD_eq_getElem?_getD, List.getElem?_eq_getElem (show k < s.hist.length by simpa using hk)]
  · rintro n s' ⟨h', he', hl, hh⟩
    obtain ⟨s2, y, hp, hi, hee, hhist, hy, -, -, hl2⟩ := Delay.process_spec (b := b) h' he' (x n)
    have key : ∀ k, k < s.memory.length → (x n :: s'.hist.dropLast)[k]? =
        some (if k < n + 1 then x (n + 1 - 1 - k) else s.hist.getD (k - (n + 1)) zero) := by
      intro k hk
      cases k with
      | zero => simp
      | succ k =>
        rw [List.getElem?_cons_succ, List.getElem?_dropLast, if_pos (by simp [hl]; omega), hh k (by omega)]
        congr 1
        by_cases hkn : k < n
        · rw [if_pos hkn, if_pos (by omega)]; congr 1; omega
        · rw [if_neg hkn, if_neg (by omega)]; congr 1; omega
    refine ⟨s2, ?_, hi, hee, hl2.trans hl, fun k hk => by rw [hhist]; exact key k hk⟩
    have he1 : e < s.memory.length := hl ▸ he'.1
    have hy2 := key e he1
    rw [hy] at hy2
    show s'.process b (x n) = _
    rw [hp, Option.some.inj hy2]
    unfold delayedBy
    by_cases hc : e ≤ n
    · rw [if_pos (show e < n + 1 by omega), if_pos hc]; rfl
    · rw [if_neg (show ¬ e < n + 1 by omega), if_neg hc]; congr 3

/-- **C07.** A new `Delay` delays every stream by `min d m` samples, after as many zeros. -/
theorem C07_new_delay_is_pure_delay [Target] {d m : ℕ} (hm : Allocatable T m) :
    ∃ s : Delay T, Delay.new b d m = .ok s ∧
      ∀ x y : ℕ → T, Responds b s x y ↔ y = fun n => if min d m ≤ n then x (n - min d m) else zero := by
  obtain ⟨s, hn, hi, he, -, hmem, hw, -⟩ := Delay.new_spec (b := b) (d := d) hm
  refine ⟨s, hn, fun x y => ?_⟩
  have hr := Delay.responds (b := b) hi he x
  have hz : delayedBy (min d m) s.hist x = fun n => if min d m ≤ n then x (n - min d m) else zero := by
    funext n
    unfold delayedBy Delay.hist
    rw [hmem, histOf_replicate]
    split
    · rfl
    · rw [List.getD_eq_getElem?_getD, List.getElem?_replicate]; split <;> rfl
  rw [hz] at hr
  exact ⟨fun h => h.unique hr, fun h => h ▸ hr⟩

/-- Non-vacuity of `Allocatable`: five seconds of 44.1 kHz samples of 8 bytes. -/
example [Target] : Allocatable ℝ (5 * 44100) := by
  show (5 * 44100 + 1) * 8 ≤ isizeMax
  have := target; omega

/-! ## C08: refinement -/

/-- `s` represents the abstract line `l`. -/
def Delay.Represents [Target] (s : Delay T) (l : Line T) : Prop :=
  s.Inv ∧ s.Eff l.delay ∧ s.hist = l.hist ∧ s.delay = l.delay ∧ s.output = l.out

omit [FloatOps T] in
theorem getD_of_get? {l : List T} {k : ℕ} {y z : T} (h : l[k]? = some y) : l.getD k z = y := by
  rw [List.getD_eq_getElem?_getD, h]; rfl

/-- **C08**, one call: the model returns what the shift register returns, and still represents it. -/
theorem C08_step_refines [Target] {s : Delay T} {l : Line T} (h : s.Represents l) {op : DelayOp T}
    (ho : op.InRange l.hist.length) :
    ∃ s', s.step b op = .ok (s', (l.step op).2) ∧ s'.Represents (l.step op).1 := by
  obtain ⟨hi, he, hh, hd, hout⟩ := h
  have hlen : s.memory.length = l.hist.length := by rw [← hh]; simp
  cases op with
  | process x =>
    obtain ⟨s2, y, hp, hi2, he2, hh2, hy, hd2, ho2, -⟩ := Delay.process_spec (b := b) hi he x
    rw [hh] at hy hh2
    refine ⟨s2, ?_, hi2, he2, hh2, hd2.trans hd, ?_⟩
    · simp only [Delay.step, hp, Res.ok_bind, Line.step, getD_of_get? hy]
    · simp only [Line.step, getD_of_get? hy, ho2]
  | setDelay d =>
    obtain ⟨s2, hp, hi2, he2, hd2, hm2, hw2, ho2⟩ := Delay.setDelay_spec (b := b) hi.hw hi.cap d
    rw [hlen] at he2 hd2
    refine ⟨s2, by simp only [Delay.step, hp, Res.ok_bind, Line.step], hi2, he2, ?_, hd2, ho2.trans hout⟩
    show histOf s2.memory s2.write_ptr = _
    rw [hm2, hw2]; exact hh
  | setMaxDelay m =>
    have hm : m < s.memory.length := by rw [hlen]; exact ho
    exact ⟨s, by simp only [Delay.step, Delay.setMaxDelay_small hm, Res.ok_bind, Line.step],
      hi, he, hh, hd, hout⟩
  | getDelay => exact ⟨s, by simp only [Delay.step, Line.step, Delay.getDelay, hd], hi, he, hh, hd, hout⟩
  | getMaxDelay =>
    have := hi.hw
    refine ⟨s, ?_, hi, he, hh, hd, hout⟩
    simp only [Delay.step, Line.step, Delay.getMaxDelay]
    rw [uSub_ok (by omega), Res.ok_bind, hlen]
  | nextOut =>
    obtain ⟨y, hp, hy⟩ := Delay.nextOut_spec hi he
    refine ⟨s, ?_, hi, he, hh, hd, hout⟩
    simp only [Delay.step, hp, Res.ok_bind, Line.step]
    rw [hh, hlen] at hy
    by_cases h0 : l.delay = 0
    · rw [if_pos h0] at hy ⊢; rw [getD_of_get? hy]
    · rw [if_neg h0] at hy ⊢; rw [getD_of_get? hy]
  | tapOut k =>
    obtain ⟨y, hp, hy⟩ := Delay.tapOut_spec (b := b) hi (show k < s.memory.length by rw [hlen]; exact ho)
    rw [hh] at hy
    exact ⟨s, by simp only [Delay.step, hp, Res.ok_bind, Line.step, getD_of_get? hy], hi, he, hh, hd, hout⟩
  | tapIn v k =>
    obtain ⟨s2, hp, hi2, hh2, hd2, ho2, hr2, hw2, hl2⟩ :=
      Delay.tapIn_spec (b := b) hi (show k < s.memory.length by rw [hlen]; exact ho) v
    refine ⟨s2, by simp only [Delay.step, hp, Res.ok_bind, Line.step], hi2, ?_, ?_, hd2.trans hd, ho2.trans hout⟩
    · unfold Delay.Eff; rw [hl2, hr2, hw2]; exact he
    · rw [hh2, hh]; rfl
  | addTo v k =>
    obtain ⟨s2, y, hy, hp, hi2, hh2, hd2, ho2, hr2, hw2, hl2⟩ :=
      Delay.addTo_spec (b := b) hi (show k < s.memory.length by rw [hlen]; exact ho) v
    rw [hh] at hy hh2
    refine ⟨s2, by simp only [Delay.step, hp, Res.ok_bind, Line.step, getD_of_get? hy], hi2, ?_, ?_,
      hd2.trans hd, ho2.trans hout⟩
    · unfold Delay.Eff; rw [hl2, hr2, hw2]; exact he
    · simp only [Line.step, getD_of_get? hy, hh2]
  | clear =>
    obtain ⟨hi2, hh2, he2⟩ := Delay.clear_spec hi
    exact ⟨s.clear, rfl, hi2, he2 _ he, by rw [hh2, hlen]; rfl, hd, rfl⟩
  | lastOut => exact ⟨s, by simp only [Delay.step, Line.step, Delay.lastOut, hout], hi, he, hh, hd, hout⟩

omit [FloatOps T] in
theorem Line.step_length [FloatOps T] (l : Line T) (hl : l.hist ≠ []) (op : DelayOp T) :
    (l.step op).1.hist.length = l.hist.length := by
  cases op <;> simp [Line.step]
  have := List.length_pos_of_ne_nil hl
  omega

/-- **C08.** From a new line, every sequence of calls with arguments in range returns exactly what the shift register
returns, call by call, and never panics. -/
theorem C08_delay_refines_shift_register [Target] {d m : ℕ} (hm : Allocatable T m) (ops : List (DelayOp T))
    (hops : ∀ op ∈ ops, op.InRange (m + 1)) :
    ∃ s s' : Delay T, Delay.new b d m = .ok s ∧ s.run b ops = .ok (s', ((Line.new d m : Line T).run ops).2) ∧
      s'.Represents ((Line.new d m : Line T).run ops).1 := by
  obtain ⟨s, hn, hi, he, hd, hmem, hw, ho⟩ := Delay.new_spec (b := b) (d := d) hm
  have h0 : s.Represents (Line.new d m) := by
    refine ⟨hi, he, ?_, hd, ho⟩
    show histOf s.memory s.write_ptr = _
    rw [hmem, histOf_replicate]; rfl
  have key : ∀ (ops : List (DelayOp T)) (s : Delay T) (l : Line T), s.Represents l → l.hist.length = m + 1 →
      (∀ op ∈ ops, op.InRange (m + 1)) →
      ∃ s', s.run b ops = .ok (s', (l.run ops).2) ∧ s'.Represents (l.run ops).1 := by
    intro ops
    induction ops with
    | nil => intro s l h _ _; exact ⟨s, rfl, h⟩
    | cons op ops ih =>
      intro s l h hl hr
      obtain ⟨s1, h1, h2⟩ := C08_step_refines (b := b) h (op := op) (by rw [hl]; exact hr op (by simp))
      have hl' : (l.step op).1.hist.length = m + 1 := by
        rw [Line.step_length l (List.ne_nil_of_length_pos (by omega))]; exact hl
      obtain ⟨s2, h3, h4⟩ := ih s1 _ h2 hl' (fun o ho => hr o (by simp [ho]))
      refine ⟨s2, ?_, h4⟩
      simp only [Delay.run, h1, h3, Res.ok_bind, Line.run]
  obtain ⟨s', h1, h2⟩ := key ops s _ h0 (by simp [Line.new]) hops
  exact ⟨s, s', hn, h1, h2⟩

/-- Non-vacuity: a mixed in-range sequence for `m = 3`. -/
example : ∀ op ∈ ([.process 1, .tapIn 5 3, .setDelay 9, .nextOut, .addTo 2 0, .clear, .setMaxDelay 2] :
    List (DelayOp ℝ)), op.InRange (3 + 1) := by
  simp [DelayOp.InRange]

/-! ## Reachable states -/

/-- In every reachable state (growth included) the indices are valid and the read position is some `e ≥ get_delay`
behind, with `e = 0` when `get_delay = 0`. -/
theorem Delay.Reachable.inv [Target] {s : Delay T} (h : Delay.Reachable b s) :
    s.Inv ∧ ∃ e, s.Eff e ∧ s.delay ≤ e ∧ (s.delay = 0 → e = 0) := by
  induction h with
  | new hm h =>
    rename_i d m s
    obtain ⟨s', hn, hi, he, hd, -⟩ := Delay.new_spec (b := b) (d := d) hm
    rw [hn] at h
    cases h
    exact ⟨hi, _, he, hd.le, fun h0 => by omega⟩
  | step hs ho h ih =>
    rename_i s s' op o
    obtain ⟨hi, e, he, hle, hz⟩ := ih
    cases op with
    | process x =>
      obtain ⟨s2, y, hp, hi2, he2, -, -, hd2, -⟩ := Delay.process_spec (b := b) hi he x
      simp only [Delay.step, hp, Res.ok_bind, Except.ok.injEq, Prod.mk.injEq] at h
      rw [← h.1]
      exact ⟨hi2, e, he2, by omega, fun h0 => hz (by omega)⟩
    | setDelay d =>
      obtain ⟨s2, hp, hi2, he2, hd2, -⟩ := Delay.setDelay_spec (b := b) hi.hw hi.cap d
      simp only [Delay.step, hp, Res.ok_bind, Except.ok.injEq, Prod.mk.injEq] at h
      rw [← h.1]
      exact ⟨hi2, _, he2, hd2.le, fun h0 => by omega⟩
    | setMaxDelay m =>
      by_cases hc : m < s.memory.length
      · simp only [Delay.step, Delay.setMaxDelay_small hc, Res.ok_bind, Except.ok.injEq, Prod.mk.injEq] at h
        rw [← h.1]
        exact ⟨hi, e, he, hle, hz⟩
      · obtain ⟨s2, hp, hi2⟩ := Delay.setMaxDelay_inv (b := b) hi (show Allocatable T m from ho)
        have hg := Delay.setMaxDelay_grow (b := b) (s := s) (m := m) (by omega) ho
        rw [hp] at hg
        cases hg
        simp only [Delay.step, hp, Res.ok_bind, Except.ok.injEq, Prod.mk.injEq] at h
        rw [← h.1]
        have h1 := he.1
        have h2 := he.2
        have hw := hi.hw
        refine ⟨hi2, if e ≤ s.write_ptr then e else e + (m + 1 - s.memory.length), ⟨?_, ?_⟩, ?_, ?_⟩
        · simp only [List.length_append, List.length_replicate]; split <;> omega
        · simp only [List.length_append, List.length_replicate]
          rw [h2]; split
          · rfl
          · rw [if_neg (by omega)]; omega
        · show s.delay ≤ _; split <;> omega
        · intro h0
          have := hz h0
          rw [if_pos (by omega)]; exact this
    | getDelay =>
      simp only [Delay.step, Except.ok.injEq, Prod.mk.injEq] at h
      rw [← h.1]; exact ⟨hi, e, he, hle, hz⟩
    | getMaxDelay =>
      simp only [Delay.step, Res.bind_ok, Except.ok.injEq, Prod.mk.injEq] at h
      obtain ⟨_, _, rfl, _⟩ := h
      exact ⟨hi, e, he, hle, hz⟩
    | nextOut =>
      simp only [Delay.step, Res.bind_ok, Except.ok.injEq, Prod.mk.injEq] at h
      obtain ⟨_, _, rfl, _⟩ := h
      exact ⟨hi, e, he, hle, hz⟩
    | tapOut k =>
      simp only [Delay.step, Res.bind_ok, Except.ok.injEq, Prod.mk.injEq] at h
      obtain ⟨_, _, rfl, _⟩ := h
      exact ⟨hi, e, he, hle, hz⟩
    | tapIn v k =>
      obtain ⟨s2, hp, hi2, -, hd2, -, hr2, hw2, hl2⟩ := Delay.tapIn_spec (b := b) hi (show k < _ from ho) v
      simp only [Delay.step, hp, Res.ok_bind, Except.ok.injEq, Prod.mk.injEq] at h
      rw [← h.1]
      exact ⟨hi2, e, by unfold Delay.Eff; rw [hl2, hr2, hw2]; exact he, by omega, fun h0 => hz (by omega)⟩
    | addTo v k =>
      obtain ⟨s2, y, -, hp, hi2, -, hd2, -, hr2, hw2, hl2⟩ :=
        Delay.addTo_spec (b := b) hi (show k < _ from ho) v
      simp only [Delay.step, hp, Res.ok_bind, Except.ok.injEq, Prod.mk.injEq] at h
      rw [← h.1]
      exact ⟨hi2, e, by unfold Delay.Eff; rw [hl2, hr2, hw2]; exact he, by omega, fun h0 => hz (by omega)⟩
    | clear =>
      simp only [Delay.step, Except.ok.injEq, Prod.mk.injEq] at h
      rw [← h.1]
      obtain ⟨hi2, -, he2⟩ := Delay.clear_spec hi
      exact ⟨hi2, e, he2 _ he, hle, hz⟩
    | lastOut =>
      simp only [Delay.step, Except.ok.injEq, Prod.mk.injEq] at h
      rw [← h.1]; exact ⟨hi, e, he, hle, hz⟩

/-! ## C09 -/

/-- **C09.** `new` succeeds, and in every reachable state every call with allowed arguments succeeds. -/
theorem C09_delay_never_panics [Target] :
    (∀ d m, Allocatable T m → ∃ s : Delay T, Delay.new b d m = .ok s) ∧
    (∀ (s : Delay T) (op : DelayOp T), Delay.Reachable b s → op.Legal s → ∃ r, s.step b op = .ok r) := by
  refine ⟨fun d m hm => ?_, fun s op hs ho => ?_⟩
  · obtain ⟨s, hn, -⟩ := Delay.new_spec (b := b) (d := d) hm
    exact ⟨s, hn⟩
  · obtain ⟨hi, e, he, -⟩ := hs.inv
    have hw := hi.hw
    cases op with
    | process x =>
      obtain ⟨s2, y, hp, -⟩ := Delay.process_inv (b := b) hi x
      simp only [Delay.step, hp, Res.ok_bind]; exact ⟨_, rfl⟩
    | setDelay d =>
      obtain ⟨s2, hp, -⟩ := Delay.setDelay_spec (b := b) hi.hw hi.cap d
      simp only [Delay.step, hp, Res.ok_bind]; exact ⟨_, rfl⟩
    | setMaxDelay m =>
      obtain ⟨s2, hp, -⟩ := Delay.setMaxDelay_inv (b := b) hi (show Allocatable T m from ho)
      simp only [Delay.step, hp, Res.ok_bind]; exact ⟨_, rfl⟩
    | getDelay => exact ⟨_, rfl⟩
    | getMaxDelay =>
      simp only [Delay.step, Delay.getMaxDelay]
      rw [uSub_ok (show 1 ≤ s.memory.length by omega), Res.ok_bind]; exact ⟨_, rfl⟩
    | nextOut =>
      obtain ⟨y, hp, -⟩ := Delay.nextOut_spec hi he
      simp only [Delay.step, hp, Res.ok_bind]; exact ⟨_, rfl⟩
    | tapOut k =>
      obtain ⟨y, hp, -⟩ := Delay.tapOut_spec (b := b) hi (show k < _ from ho)
      simp only [Delay.step, hp, Res.ok_bind]; exact ⟨_, rfl⟩
    | tapIn v k =>
      obtain ⟨s2, hp, -⟩ := Delay.tapIn_spec (b := b) hi (show k < _ from ho) v
      simp only [Delay.step, hp, Res.ok_bind]; exact ⟨_, rfl⟩
    | addTo v k =>
      obtain ⟨s2, y, -, hp, -⟩ := Delay.addTo_spec (b := b) hi (show k < _ from ho) v
      simp only [Delay.step, hp, Res.ok_bind]; exact ⟨_, rfl⟩
    | clear => exact ⟨_, rfl⟩
    | lastOut => exact ⟨_, rfl⟩

/-- **C09**, blocks: `process_block` on a non-empty slice succeeds in every reachable state. -/
theorem C09_delay_block_never_panics [Target] {s : Delay T} (hs : Delay.Reachable b s) {xs : List T} (hne : xs ≠ []) :
    ∃ r, processBlock b s xs = .ok r := by
  have key : ∀ (xs : List T) (s : Delay T), s.Inv → ∃ ys s', Steps b s xs ys s' := by
    intro xs
    induction xs with
    | nil => intro s _; exact ⟨_, _, .nil s⟩
    | cons x xs ih =>
      intro s h
      obtain ⟨s2, y, hp, hi⟩ := Delay.process_inv (b := b) h x
      obtain ⟨ys, s', hst⟩ := ih s2 hi
      exact ⟨_, _, .cons hp hst⟩
  obtain ⟨ys, s', h⟩ := key xs s hs.inv.1
  obtain ⟨y, -, hy⟩ := C01_processBlock_of_steps hne h
  exact ⟨_, hy⟩

/-- Without the allocation guard the claim is false: in a release build `Delay::new(0, usize::MAX)` wraps to an empty
memory, and `process` panics. -/
theorem C09_unguarded_new_false [Target] : ∃ s : Delay ℝ, Delay.new ⟨false⟩ 0 (usizeMod - 1) = .ok s ∧
    s.process ⟨false⟩ 1 = .error .panic := by
  refine ⟨{ memory := [], output := 0, read_ptr := 0, write_ptr := 0, delay := 0 }, ?_, ?_⟩
  · have h1 : uAdd ⟨false⟩ (usizeMod - 1) 1 = .ok 0 := by
      have := target
      simp [uAdd, show usizeMod - 1 + 1 = usizeMod by omega]
    have h2 : vecNew (zero : ℝ) 0 = .ok [] := by simp [vecNew]
    unfold Delay.new
    simp only [h1, h2, Res.ok_bind]
    unfold Delay.setDelay
    simp [uSub, Res.ok_bind]
  · simp [Delay.process, idxSet]

/-! ## C10 -/

/-- **C10.** `new` and `set_delay` clip: `get_delay` is `min d max`, and `new` sets the maximum to `m`. -/
theorem C10_delay_is_clipped [Target] :
    (∀ d m, Allocatable T m → ∃ s : Delay T, Delay.new b d m = .ok s ∧ s.getDelay = min d m ∧
      s.getMaxDelay b = .ok m) ∧
    (∀ (s : Delay T) (d : ℕ), Delay.Reachable b s → ∃ s' mx, s.getMaxDelay b = .ok mx ∧ s.setDelay b d = .ok s' ∧
      s'.getMaxDelay b = .ok mx ∧ s'.getDelay = min d mx) := by
  refine ⟨fun d m hm => ?_, fun s d hs => ?_⟩
  · obtain ⟨s, hn, hi, -, hd, hmem, -⟩ := Delay.new_spec (b := b) (d := d) hm
    exact ⟨s, hn, hd, by simp [Delay.getMaxDelay, hmem, uSub]⟩
  · obtain ⟨hi, -⟩ := hs.inv
    have hw := hi.hw
    obtain ⟨s2, hp, -, -, hd2, hm2, -⟩ := Delay.setDelay_spec (b := b) hi.hw hi.cap d
    refine ⟨s2, s.memory.length - 1, uSub_ok (by omega), hp, ?_, hd2⟩
    unfold Delay.getMaxDelay
    rw [hm2]; exact uSub_ok (by omega)

/-- **C10.** `get_delay ≤ get_max_delay` in every reachable state. -/
theorem C10_delay_le_max [Target] {s : Delay T} (hs : Delay.Reachable b s) :
    ∃ mx, s.getMaxDelay b = .ok mx ∧ s.getDelay ≤ mx := by
  obtain ⟨hi, e, he, hle, -⟩ := hs.inv
  have hw := hi.hw
  have h1 := he.1
  exact ⟨_, uSub_ok (by omega), by show s.delay ≤ _; omega⟩

/-! ## C11 -/

/-- The taps of a valid line show its history. -/
theorem Delay.Inv.stores [Target] {s : Delay T} (h : s.Inv) : Delay.Stores b s s.hist := by
  have hw := h.hw
  refine ⟨⟨s.memory.length - 1, uSub_ok (by omega), by simp; omega⟩, fun k hk => ?_⟩
  obtain ⟨y, h1, h2⟩ := Delay.tapOut_spec (b := b) h (k := k) (by simpa using hk)
  rw [List.getElem?_eq_getElem hk, Option.some.injEq] at h2
  rw [h1, h2]

omit [FloatOps T] in
theorem Delay.Stores.eq [Target] {s : Delay T} {h h' : List T} (h1 : Delay.Stores b s h) (h2 : Delay.Stores b s h') :
    h = h' := by
  obtain ⟨⟨m, hm, hl⟩, ht⟩ := h1
  obtain ⟨⟨m', hm', hl'⟩, ht'⟩ := h2
  rw [hm] at hm'
  cases hm'
  refine List.ext_getElem (by omega) fun k hk hk' => ?_
  have := (ht k hk).symm.trans (ht' k hk')
  simpa using this

/-- **C11.** `set_delay` changes no tap and not `last_out`; the stream then continues at the new distance at once,
replaying the stored samples (as shown by the taps before the call). -/
theorem C11_setDelay_moves_read_position [Target] {s : Delay T} (hs : Delay.Reachable b s) {h : List T}
    (hst : s.Stores b h) (d : ℕ) :
    ∃ s', s.setDelay b d = .ok s' ∧ (∀ k, s'.tapOut b k = s.tapOut b k) ∧ s'.lastOut = s.lastOut ∧
      ∀ x, Responds b s' x (delayedBy (min d (h.length - 1)) h x) := by
  obtain ⟨hi, -⟩ := hs.inv
  obtain rfl := hst.eq hi.stores
  obtain ⟨s2, hp, hi2, he2, -, hm2, hw2, ho2⟩ := Delay.setDelay_spec (b := b) hi.hw hi.cap d
  have hh : s2.hist = s.hist := by unfold Delay.hist; rw [hm2, hw2]
  refine ⟨s2, hp, fun k => by unfold Delay.tapOut; rw [hm2, hw2], ho2, fun x => ?_⟩
  rw [Delay.hist_length, ← hh]
  exact Delay.responds hi2 he2 x

/-- Every reachable line has such an `h`. -/
theorem C11_taps_show_line [Target] {s : Delay T} (hs : Delay.Reachable b s) : ∃ h, s.Stores b h := ⟨_, hs.inv.1.stores⟩

/-! ## C12 -/

/-- **C12**, delay at least 1: `next_out` returns what the next `process` returns. -/
theorem C12_nextOut_predicts [Target] {s : Delay T} (hs : Delay.Reachable b s) (hd : 1 ≤ s.getDelay) (x : T) :
    ∃ s' y, s.nextOut = .ok y ∧ s.process b x = .ok (s', y) := by
  obtain ⟨hi, e, he, hle, -⟩ := hs.inv
  have hd' : 1 ≤ s.delay := hd
  obtain ⟨y, hn, hy⟩ := Delay.nextOut_spec hi he
  obtain ⟨s2, z, hp, -, -, -, hz, -⟩ := Delay.process_spec (b := b) hi he x
  rw [if_neg (by omega)] at hy
  obtain ⟨e', rfl⟩ : ∃ e', e = e' + 1 := ⟨e - 1, by omega⟩
  have h1 := he.1
  rw [List.getElem?_cons_succ, List.getElem?_dropLast, if_pos (by simp; omega)] at hz
  simp only [Nat.add_sub_cancel] at hy
  rw [hy] at hz
  cases hz
  exact ⟨s2, y, hn, hp⟩

/-- **C12**, delay 0: `process` returns its own argument, `next_out` the oldest stored sample. -/
theorem C12_nextOut_delay_zero [Target] {s : Delay T} (hs : Delay.Reachable b s) (hd : s.getDelay = 0) (x : T) :
    (∃ s', s.process b x = .ok (s', x)) ∧ ∃ mx, s.getMaxDelay b = .ok mx ∧ s.nextOut = s.tapOut b mx := by
  obtain ⟨hi, e, he, -, hz⟩ := hs.inv
  have h0 : e = 0 := hz hd
  subst h0
  obtain ⟨y, hn, hy⟩ := Delay.nextOut_spec hi he
  obtain ⟨s2, z, hp, -, -, -, hz2, -⟩ := Delay.process_spec (b := b) hi he x
  simp only [List.getElem?_cons_zero, Option.some.injEq] at hz2
  subst hz2
  have hw := hi.hw
  refine ⟨⟨s2, hp⟩, s.memory.length - 1, uSub_ok (by omega), ?_⟩
  rw [if_pos rfl] at hy
  obtain ⟨v, h1, h2⟩ := Delay.tapOut_spec (b := b) hi (k := s.memory.length - 1) (by omega)
  rw [hy] at h2
  cases h2
  rw [hn, h1]

/-- **C12**, exactly when: `next_out` announces the next output for every sample iff the delay is at least 1. -/
theorem C12_nextOut_predicts_iff [Target] [Nontrivial T] {s : Delay T} (hs : Delay.Reachable b s) :
    (∀ x, ∃ s' y, s.nextOut = .ok y ∧ s.process b x = .ok (s', y)) ↔ 1 ≤ s.getDelay := by
  refine ⟨fun h => ?_, fun hd x => C12_nextOut_predicts hs hd x⟩
  by_contra hc
  have h0 : s.getDelay = 0 := by omega
  have key : ∀ x, s.nextOut = .ok x := by
    intro x
    obtain ⟨⟨s1, h1⟩, -⟩ := C12_nextOut_delay_zero (b := b) hs h0 x
    obtain ⟨s2, y, h2, h3⟩ := h x
    rw [h1] at h3
    cases h3
    exact h2
  obtain ⟨x, y, hxy⟩ := exists_pair_ne T
  exact hxy (Except.ok.inj ((key x).symm.trans (key y)))

/-- **C12 is false at delay 0**: a new line of delay 0 announces 0 and then returns its argument 1. -/
theorem C12_false [t : Target] : ∃ (s s' : Delay ℝ), Delay.Reachable ⟨true⟩ s ∧ s.nextOut = .ok 0 ∧
    s.process ⟨true⟩ 1 = .ok (s', 1) := by
  have hm : Allocatable ℝ 3 := by show (3 + 1) * 8 ≤ isizeMax; have := target; omega
  refine ⟨{ memory := [0, 0, 0, 0], output := 0, read_ptr := 0, write_ptr := 0, delay := 0 },
    { memory := [1, 0, 0, 0], output := 1, read_ptr := 1, write_ptr := 1, delay := 0 }, .new (d := 0) hm ?_, rfl, ?_⟩
  all_goals rcases t with ⟨_ | _⟩
  · simp [Delay.new, uAdd, usizeMod, vecNew, Delay.setDelay, uSub, isizeMax, isizeMod, usizeBits, FloatOps.size, List.replicate]
  · simp [Delay.new, uAdd, usizeMod, vecNew, Delay.setDelay, uSub, isizeMax, isizeMod, usizeBits, FloatOps.size, List.replicate]
  · rfl
  · rfl

end Rasp
