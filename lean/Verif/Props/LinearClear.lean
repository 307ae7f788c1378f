import Verif.Props.LinearReal

/-!
# C28 for any arithmetic: after `clear`, what was processed before is gone
-/

namespace Rasp
open FloatOps

variable {D T : Type} [FloatOps D] [FloatOps T] [DelayTime D T] {b : Build}

/-- The same call up to the sample it carries. -/
def LinOp.SameShape : LinOp D T → LinOp D T → Prop
  | .process _, .process _ => True
  | .setDelay d, .setDelay d' => d = d'
  | .setMaxDelay m, .setMaxDelay m' => m = m'
  | .nextOut, .nextOut => True
  | .tapOut k, .tapOut k' => k = k'
  | .tapIn _ k, .tapIn _ k' => k = k'
  | .addTo _ k, .addTo _ k' => k = k'
  | .clear, .clear => True
  | _, _ => False

/-- Two lines that differ in their samples only. -/
structure LinearDelay.Twin (s t : LinearDelay D T) : Prop where
  len : t.memory.length = s.memory.length
  read : t.read_ptr = s.read_ptr
  write : t.write_ptr = s.write_ptr
  delay : t.delay = s.delay
  alpha : t.alpha = s.alpha
  om_alpha : t.om_alpha = s.om_alpha
  fresh : t.do_next_out = s.do_next_out

theorem idxSet_length {T : Type} {l l' : List T} {i : ℕ} {v : T} (h : idxSet l i v = .ok l') :
    l'.length = l.length ∧ l' = l.set i v := by
  unfold idxSet at h
  split at h
  · cases h; simp
  · cases h

theorem vecResize_length [Target] {T : Type} [FloatOps T] {l l' : List T} {n : ℕ} {v : T} (h : vecResize l n v = .ok l') :
    l'.length = n := by
  unfold vecResize at h
  split at h
  · cases h; simp; omega
  · split at h
    · cases h; simp; omega
    · cases h

omit [FloatOps D] [DelayTime D T] in
theorem LinearDelay.process_twin [Target] {s s' t t' : LinearDelay D T} {x x' y y' : T} (ht : s.Twin t)
    (h : s.process b x = .ok (s', y)) (h' : t.process b x' = .ok (t', y')) : s'.Twin t' := by
  unfold LinearDelay.process at h h'
  simp only [Res.bind_ok] at h h'
  obtain ⟨m, hm, w, hw, w1, hw1, ⟨s1, o⟩, hn, r, hr, r1, hr1, h⟩ := h
  obtain ⟨m', hm', w', hw', w1', hw1', ⟨s1', o'⟩, hn', r', hr', r1', hr1', h'⟩ := h'
  have l1 := (idxSet_length hm).1
  have l2 := (idxSet_length hm').1
  rw [ht.write, hw] at hw'
  cases hw'
  rw [l2, ht.len, ← l1, hw1] at hw1'
  cases hw1'
  obtain rfl := LinearDelay.nextOut_frame hn
  obtain rfl := LinearDelay.nextOut_frame hn'
  simp only at hr hr' hr1 hr1'
  rw [ht.read, hr] at hr'
  cases hr'
  rw [l2, ht.len, ← l1, hr1] at hr1'
  cases hr1'
  cases h
  cases h'
  exact ⟨by simp only [l1, l2, ht.len], rfl, rfl, ht.delay, ht.alpha, ht.om_alpha, rfl⟩

theorem LinearDelay.setDelay_twin [Target] {s s' t t' : LinearDelay D T} {d : D} (ht : s.Twin t)
    (h : s.setDelay b d = .ok s') (h' : t.setDelay b d = .ok t') : s'.Twin t' := by
  unfold LinearDelay.setDelay at h h'
  rw [ht.len, ht.write] at h'
  simp only [Res.bind_ok] at h h'
  obtain ⟨m, hm, p, hp, h⟩ := h
  obtain ⟨m', hm', p', hp', h'⟩ := h'
  rw [hm] at hm'
  cases hm'
  rw [hp] at hp'
  cases hp'
  cases h
  cases h'
  exact ⟨ht.len, rfl, rfl, rfl, rfl, rfl, ht.fresh⟩

omit [FloatOps D] [DelayTime D T] in
theorem LinearDelay.setMaxDelay_twin [Target] {s s' t t' : LinearDelay D T} {m : ℕ} (ht : s.Twin t)
    (h : s.setMaxDelay b m = .ok s') (h' : t.setMaxDelay b m = .ok t') : s'.Twin t' := by
  unfold LinearDelay.setMaxDelay at h h'
  rw [ht.len] at h'
  split at h
  · rw [if_pos ‹_›] at h'
    cases h
    cases h'
    exact ht
  · rw [if_neg ‹_›] at h'
    simp only [Res.bind_ok] at h h'
    obtain ⟨n, hn, l, hl, h⟩ := h
    obtain ⟨n', hn', l', hl', h'⟩ := h'
    rw [hn] at hn'
    cases hn'
    cases h
    cases h'
    exact ⟨by simp only [vecResize_length hl, vecResize_length hl'], ht.read, ht.write, ht.delay, ht.alpha, ht.om_alpha,
      ht.fresh⟩

theorem LinearDelay.step_twin [Target] {s s' t t' : LinearDelay D T} {op op' : LinOp D T} {o o' : Obs T} (ht : s.Twin t)
    (hop : op.SameShape op') (h : s.step b op = .ok (s', o)) (h' : t.step b op' = .ok (t', o')) : s'.Twin t' := by
  cases op <;> cases op' <;> simp only [LinOp.SameShape] at hop
  all_goals try subst hop
  all_goals simp only [LinearDelay.step, Res.bind_ok] at h h'
  · obtain ⟨⟨s1, y⟩, h1, h⟩ := h
    obtain ⟨⟨t1, y'⟩, h1', h'⟩ := h'
    cases h
    cases h'
    exact LinearDelay.process_twin ht h1 h1'
  · obtain ⟨s1, h1, h⟩ := h
    obtain ⟨t1, h1', h'⟩ := h'
    cases h
    cases h'
    exact LinearDelay.setDelay_twin ht h1 h1'
  · obtain ⟨s1, h1, h⟩ := h
    obtain ⟨t1, h1', h'⟩ := h'
    cases h
    cases h'
    exact LinearDelay.setMaxDelay_twin ht h1 h1'
  · obtain ⟨⟨s1, y⟩, h1, h⟩ := h
    obtain ⟨⟨t1, y'⟩, h1', h'⟩ := h'
    cases h
    cases h'
    obtain rfl := LinearDelay.nextOut_frame h1
    obtain rfl := LinearDelay.nextOut_frame h1'
    exact ⟨ht.len, ht.read, ht.write, ht.delay, ht.alpha, ht.om_alpha, rfl⟩
  · obtain ⟨y, -, h⟩ := h
    obtain ⟨y', -, h'⟩ := h'
    cases h
    cases h'
    exact ht
  · obtain ⟨s1, h1, h⟩ := h
    obtain ⟨t1, h1', h'⟩ := h'
    cases h
    cases h'
    unfold LinearDelay.tapIn at h1 h1'
    simp only [Res.bind_ok] at h1 h1'
    obtain ⟨i, -, m, hm, h1⟩ := h1
    obtain ⟨i', -, m', hm', h1'⟩ := h1'
    cases h1
    cases h1'
    exact ⟨by simp only [(idxSet_length hm).1, (idxSet_length hm').1, ht.len], ht.read, ht.write, ht.delay, ht.alpha,
      ht.om_alpha, ht.fresh⟩
  · obtain ⟨⟨s1, y⟩, h1, h⟩ := h
    obtain ⟨⟨t1, y'⟩, h1', h'⟩ := h'
    cases h
    cases h'
    unfold LinearDelay.addTo at h1 h1'
    simp only [Res.bind_ok] at h1 h1'
    obtain ⟨i, -, v, -, m, hm, u, -, h1⟩ := h1
    obtain ⟨i', -, v', -, m', hm', u', -, h1'⟩ := h1'
    cases h1
    cases h1'
    exact ⟨by simp only [(idxSet_length hm).1, (idxSet_length hm').1, ht.len], ht.read, ht.write, ht.delay, ht.alpha,
      ht.om_alpha, ht.fresh⟩
  · cases h
    cases h'
    exact ⟨by simp [LinearDelay.clear, ht.len], ht.read, ht.write, ht.delay, ht.alpha, ht.om_alpha, ht.fresh⟩

theorem LinearDelay.run_twin [Target] {s s' t t' : LinearDelay D T} {ops ops' : List (LinOp D T)} {os os' : List (Obs T)}
    (ht : s.Twin t) (hop : List.Forall₂ LinOp.SameShape ops ops') (h : s.run b ops = .ok (s', os))
    (h' : t.run b ops' = .ok (t', os')) : s'.Twin t' := by
  induction hop generalizing s t os os' with
  | nil => cases h; cases h'; exact ht
  | cons h1 _ ih =>
    simp only [LinearDelay.run, Res.bind_ok] at h h'
    obtain ⟨⟨s1, o⟩, hs, ⟨s2, _⟩, hr, h⟩ := h
    obtain ⟨⟨t1, o'⟩, hs', ⟨t2, _⟩, hr', h'⟩ := h'
    cases h
    cases h'
    exact ih (LinearDelay.step_twin ht h1 hs hs') hr hr'

/-- Whether a `next_out` is pending, from the calls made. -/
theorem LinearDelay.run_pending [Target] {s s' : LinearDelay D T} {ops : List (LinOp D T)} {os : List (Obs T)}
    (h : s.run b ops = .ok (s', os)) : pendingAfter (!s.do_next_out) ops = !s'.do_next_out := by
  induction ops generalizing s os with
  | nil => cases h; rfl
  | cons op ops ih =>
    simp only [LinearDelay.run, Res.bind_ok] at h
    obtain ⟨⟨s1, o⟩, hs, ⟨s2, _⟩, hr, h⟩ := h
    cases h
    rw [← ih hr]
    cases op <;> simp only [LinearDelay.step, Res.bind_ok] at hs
    · obtain ⟨⟨s3, y⟩, h1, hs⟩ := hs
      cases hs
      unfold LinearDelay.process at h1
      simp only [Res.bind_ok] at h1
      obtain ⟨_, -, _, -, _, -, ⟨s4, o⟩, -, _, -, _, -, h1⟩ := h1
      cases h1
      rfl
    · obtain ⟨s3, h1, hs⟩ := hs
      cases hs
      rw [← (LinearDelay.setDelay_frame h1).2.2.2.1]
      rfl
    · obtain ⟨s3, h1, hs⟩ := hs
      cases hs
      unfold LinearDelay.setMaxDelay at h1
      split at h1
      · cases h1; rfl
      · simp only [Res.bind_ok] at h1
        obtain ⟨_, -, _, -, h1⟩ := h1
        cases h1
        rfl
    · obtain ⟨⟨s3, y⟩, h1, hs⟩ := hs
      cases hs
      obtain rfl := LinearDelay.nextOut_frame h1
      rfl
    · obtain ⟨y, -, hs⟩ := hs
      cases hs
      rfl
    · obtain ⟨s3, h1, hs⟩ := hs
      cases hs
      unfold LinearDelay.tapIn at h1
      simp only [Res.bind_ok] at h1
      obtain ⟨_, -, _, -, h1⟩ := h1
      cases h1
      rfl
    · obtain ⟨⟨s3, y⟩, h1, hs⟩ := hs
      cases hs
      unfold LinearDelay.addTo at h1
      simp only [Res.bind_ok] at h1
      obtain ⟨_, -, _, -, _, -, _, -, h1⟩ := h1
      cases h1
      rfl
    · cases hs
      rfl

omit [FloatOps D] [DelayTime D T] in
/-- Without a pending `next_out` the cached value is not read. -/
theorem LinearDelay.nextOut_stale [Target] {s : LinearDelay D T} (hd : s.do_next_out = true) (v : T) :
    LinearDelay.nextOut b { s with next_out := v } = s.nextOut b := by
  unfold LinearDelay.nextOut
  simp only [hd, if_true]

omit [FloatOps D] [DelayTime D T] in
theorem LinearDelay.process_stale [Target] {s : LinearDelay D T} (hd : s.do_next_out = true) (v x : T) :
    LinearDelay.process b { s with next_out := v } x = s.process b x := by
  unfold LinearDelay.process
  simp only
  congr 1
  funext m
  congr 1
  funext w
  congr 1
  funext w1
  have := LinearDelay.nextOut_stale (b := b) (s := { s with memory := m, write_ptr := w1 }) hd v
  simp only at this
  rw [this]

/-- A cached value that is not pending is never seen again. -/
theorem LinearDelay.run_stale [Target] (ops : List (LinOp D T)) {s : LinearDelay D T} (hd : s.do_next_out = true) (v : T) :
    (LinearDelay.run b { s with next_out := v } ops).map Prod.snd = (s.run b ops).map Prod.snd := by
  induction ops generalizing s with
  | nil => rfl
  | cons op ops ih =>
    have key : ∀ (f : LinearDelay D T → Res (LinearDelay D T × Obs T)),
        (∀ u : LinearDelay D T, u.do_next_out = true → (f { u with next_out := v }) =
          (f u).map (fun p => ({ p.1 with next_out := v }, p.2)) ∧ ∀ p, f u = .ok p → p.1.do_next_out = true) →
        ((do let (s1, o) ← f { s with next_out := v }
             let (s2, os) ← LinearDelay.run b s1 ops
             .ok (s2, o :: os)) : Res (LinearDelay D T × List (Obs T))).map Prod.snd =
        ((do let (s1, o) ← f s
             let (s2, os) ← LinearDelay.run b s1 ops
             .ok (s2, o :: os)) : Res (LinearDelay D T × List (Obs T))).map Prod.snd := by
      intro f hf
      obtain ⟨h1, h2⟩ := hf s hd
      rw [h1]
      cases hfs : f s with
      | error e => rfl
      | ok p =>
        have h3 := ih (s := p.1) (h2 p hfs)
        show Except.map Prod.snd (do
            let (s2, os) ← LinearDelay.run b { p.1 with next_out := v } ops
            Except.ok (s2, p.2 :: os)) = Except.map Prod.snd (do
            let (s2, os) ← LinearDelay.run b p.1 ops
            Except.ok (s2, p.2 :: os))
        revert h3
        cases LinearDelay.run b { p.1 with next_out := v } ops <;> cases LinearDelay.run b p.1 ops <;> intro h3
        · cases h3; rfl
        · cases h3
        · cases h3
        · exact congrArg (fun os => Except.ok (p.2 :: os)) (Except.ok.inj h3)
    cases op with
    | process x => simp only [LinearDelay.run, LinearDelay.step, LinearDelay.process_stale hd v x]
    | nextOut => simp only [LinearDelay.run, LinearDelay.step, LinearDelay.nextOut_stale hd v]
    | setDelay d =>
      refine key (fun u => u.step b (.setDelay d)) fun u hu => ⟨?_, ?_⟩
      · simp only [LinearDelay.step, LinearDelay.setDelay]
        cases uSub b u.memory.length 1 with
        | error e => rfl
        | ok m =>
          simp only [Res.ok_bind]
          cases whileLoop (fun x : D => lt x zero) (fun x => x +. ofUsize u.memory.length)
            (ofUsize u.write_ptr -. clipDelay d (ofUsize m)) <;> rfl
      · intro p hp
        simp only [LinearDelay.step, Res.bind_ok] at hp
        obtain ⟨s3, h1, hs⟩ := hp
        cases hs
        exact (LinearDelay.setDelay_frame h1).2.2.2.1.trans hu
    | setMaxDelay m =>
      refine key (fun u => u.step b (.setMaxDelay m)) fun u hu => ⟨?_, ?_⟩
      · simp only [LinearDelay.step, LinearDelay.setMaxDelay]
        split
        · rfl
        · cases uAdd b m 1 with
          | error e => rfl
          | ok n =>
            simp only [Res.ok_bind]
            cases vecResize u.memory n zero <;> rfl
      · intro p hp
        simp only [LinearDelay.step, Res.bind_ok] at hp
        obtain ⟨s3, h1, hs⟩ := hp
        cases hs
        unfold LinearDelay.setMaxDelay at h1
        split at h1
        · cases h1; exact hu
        · simp only [Res.bind_ok] at h1
          obtain ⟨_, -, _, -, h1⟩ := h1
          cases h1
          exact hu
    | tapOut k =>
      refine key (fun u => u.step b (.tapOut k)) fun u hu => ⟨?_, ?_⟩
      · simp only [LinearDelay.step, LinearDelay.tapOut]
        cases tapIndex b u.write_ptr k u.memory.length with
        | error e => rfl
        | ok i =>
          simp only [Res.ok_bind]
          cases idx u.memory i <;> rfl
      · intro p hp
        simp only [LinearDelay.step, Res.bind_ok] at hp
        obtain ⟨y, -, hs⟩ := hp
        cases hs
        exact hu
    | tapIn w k =>
      refine key (fun u => u.step b (.tapIn w k)) fun u hu => ⟨?_, ?_⟩
      · simp only [LinearDelay.step, LinearDelay.tapIn]
        cases tapIndex b u.write_ptr k u.memory.length with
        | error e => rfl
        | ok i =>
          simp only [Res.ok_bind]
          cases idxSet u.memory i w <;> rfl
      · intro p hp
        simp only [LinearDelay.step, Res.bind_ok] at hp
        obtain ⟨s3, h1, hs⟩ := hp
        cases hs
        unfold LinearDelay.tapIn at h1
        simp only [Res.bind_ok] at h1
        obtain ⟨_, -, _, -, h1⟩ := h1
        cases h1
        exact hu
    | addTo w k =>
      refine key (fun u => u.step b (.addTo w k)) fun u hu => ⟨?_, ?_⟩
      · simp only [LinearDelay.step, LinearDelay.addTo]
        cases tapIndex b u.write_ptr k u.memory.length with
        | error e => rfl
        | ok i =>
          simp only [Res.ok_bind]
          cases idx u.memory i with
          | error e => rfl
          | ok old =>
            simp only [Res.ok_bind]
            cases idxSet u.memory i (old +. w) with
            | error e => rfl
            | ok m =>
              simp only [Res.ok_bind]
              cases idx m i <;> rfl
      · intro p hp
        simp only [LinearDelay.step, Res.bind_ok] at hp
        obtain ⟨⟨s3, y⟩, h1, hs⟩ := hp
        cases hs
        unfold LinearDelay.addTo at h1
        simp only [Res.bind_ok] at h1
        obtain ⟨_, -, _, -, _, -, _, -, h1⟩ := h1
        cases h1
        exact hu
    | clear =>
      refine key (fun u => u.step b .clear) fun u hu => ⟨rfl, ?_⟩
      intro p hp
      cases hp
      exact hu

/-- **C28**, for any arithmetic: two runs of the same calls with different samples, ending without a pending `next_out`
and followed by `clear`, behave identically from then on, whatever is called next (growth of the line included). -/
theorem C28_clear_forgets_samples [Target] {d : D} {m : ℕ} {s s1 s2 : LinearDelay D T} (hnew : LinearDelay.new b d m = .ok s)
    {ops ops' : List (LinOp D T)} {os os' : List (Obs T)} (hop : List.Forall₂ LinOp.SameShape ops ops')
    (h1 : s.run b ops = .ok (s1, os)) (h2 : s.run b ops' = .ok (s2, os')) (hp : pendingAfter false ops = false)
    (later : List (LinOp D T)) :
    (s1.clear.run b later).map Prod.snd = (s2.clear.run b later).map Prod.snd := by
  have hd : s.do_next_out = true := by
    unfold LinearDelay.new at hnew
    simp only [Res.bind_ok] at hnew
    obtain ⟨_, -, _, -, hnew⟩ := hnew
    exact (LinearDelay.setDelay_frame hnew).2.2.2.1
  have ht := LinearDelay.run_twin (b := b) (s := s) (t := s) ⟨rfl, rfl, rfl, rfl, rfl, rfl, rfl⟩ hop h1 h2
  have hp1 := LinearDelay.run_pending h1
  rw [hd, Bool.not_true, hp] at hp1
  have hd1 : s1.do_next_out = true := by simpa using hp1.symm
  have e : s2.clear = { s1.clear with next_out := s2.next_out } := by
    have hm : s2.memory.map (fun _ => (zero : T)) = s1.memory.map (fun _ => zero) := by
      simp only [List.map_const', ht.len]
    unfold LinearDelay.clear
    rw [hm]
    have e1 := ht.read
    have e2 := ht.write
    have e3 := ht.delay
    have e4 := ht.alpha
    have e5 := ht.om_alpha
    have e6 := ht.fresh
    cases s1
    cases s2
    simp only at e1 e2 e3 e4 e5 e6
    subst e1 e2 e3 e4 e5 e6
    rfl
  rw [e]
  exact (LinearDelay.run_stale (b := b) later (s := s1.clear) hd1 s2.next_out).symm

/-- The hypotheses hold, e.g. for one sample 5 or 7 with a look-ahead before it. -/
example [Target] (b : Build) : ∃ (s s1 s2 : LinearDelay ℝ ℝ) (os os' : List (Obs ℝ)), LinearDelay.new b 1 3 = .ok s ∧
    s.run b [.nextOut, .process 5] = .ok (s1, os) ∧ s.run b [.nextOut, .process 7] = .ok (s2, os') ∧
    List.Forall₂ LinOp.SameShape [.nextOut, .process (5 : ℝ)] [(.nextOut : LinOp ℝ ℝ), .process 7] ∧
    pendingAfter false [(.nextOut : LinOp ℝ ℝ), .process 5] = false := by
  have hm : Allocatable ℝ 3 := by
    unfold Allocatable
    have : size ℝ = 8 := rfl
    rw [this]; have := target; omega
  obtain ⟨s, hnew, -, -⟩ := C20_new_interpolates (b := b) hm 1
  have hR : LinearDelay.Reachable b s := .new hm hnew
  obtain ⟨⟨t, o⟩, ht⟩ := C24_never_panics_real hR (op := .nextOut) trivial
  have hRt : LinearDelay.Reachable b t := .step hR (op := .nextOut) trivial ht
  obtain ⟨⟨s1, o1⟩, h1⟩ := C24_never_panics_real hRt (op := .process 5) trivial
  obtain ⟨⟨s2, o2⟩, h2⟩ := C24_never_panics_real hRt (op := .process 7) trivial
  refine ⟨s, s1, s2, [o, o1], [o, o2], hnew, ?_, ?_, .cons trivial (.cons trivial .nil), rfl⟩
  · simp only [LinearDelay.run, ht, h1, Res.ok_bind]
  · simp only [LinearDelay.run, ht, h2, Res.ok_bind]

end Rasp
