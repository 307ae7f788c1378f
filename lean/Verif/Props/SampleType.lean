import Verif.Spec.SampleType
import Verif.Props.Delay
import Verif.Props.RoundingAnalysis
import Verif.Props.GainFloat
import Verif.Props.WindowError
import Verif.Props.LinearClose

/-!
# C144: other sample types
-/

namespace Rasp
open FloatOps
variable {T T' : Type} [FloatOps T] [FloatOps T'] {R : T → T' → Prop}

theorem ResRel.bind {α β γ δ : Type} {P : α → β → Prop} {Q : γ → δ → Prop} {r : Res α} {r' : Res β} {g : α → Res γ} {g' : β → Res δ}
    (h : ResRel P r r') (hg : ∀ x y, P x y → ResRel Q (g x) (g' y)) : ResRel Q (r >>= g) (r' >>= g') := by
  cases r <;> cases r'
  · exact h
  · exact h.elim
  · exact h.elim
  · exact hg _ _ h

theorem ResRel.refl {α : Type} (r : Res α) : ResRel Eq r r := by cases r <;> exact rfl

theorem ResRel.map {α β γ δ : Type} {P : α → β → Prop} {Q : γ → δ → Prop} {r : Res α} {r' : Res β} {g : α → γ} {g' : β → δ}
    (h : ResRel P r r') (hg : ∀ x y, P x y → Q (g x) (g' y)) : ResRel Q (r.map g) (r'.map g') := by
  cases r <;> cases r'
  · exact h
  · exact h.elim
  · exact h.elim
  · exact hg _ _ h

omit [FloatOps T] [FloatOps T'] in
theorem idx_rel {v : List T} {w : List T'} (h : List.Forall₂ R v w) (i : ℕ) : ResRel R (idx v i) (idx w i) := by
  unfold idx
  induction h generalizing i with
  | nil => exact rfl
  | cons hx _ ih =>
    cases i with
    | zero => exact hx
    | succ i => simpa using ih i

omit [FloatOps T] [FloatOps T'] in
theorem set_rel {v : List T} {w : List T'} (h : List.Forall₂ R v w) (i : ℕ) {x : T} {y : T'} (hx : R x y) : List.Forall₂ R (v.set i x) (w.set i y) := by
  induction h generalizing i with
  | nil => exact .nil
  | cons hx' ht ih =>
    cases i with
    | zero => exact .cons hx ht
    | succ i => exact .cons hx' (ih i)

omit [FloatOps T] [FloatOps T'] in
theorem idxSet_rel {v : List T} {w : List T'} (h : List.Forall₂ R v w) (i : ℕ) {x : T} {y : T'} (hx : R x y) :
    ResRel (List.Forall₂ R) (idxSet v i x) (idxSet w i y) := by
  unfold idxSet
  rw [h.length_eq]
  split
  · exact set_rel h i hx
  · exact rfl

omit [FloatOps T] [FloatOps T'] in
theorem replicate_rel {x : T} {y : T'} (h : R x y) (n : ℕ) : List.Forall₂ R (List.replicate n x) (List.replicate n y) := by
  induction n with
  | zero => exact .nil
  | succ n ih => exact .cons h ih

/-- Lines with the same pointers and related samples. -/
structure Delay.Rel (R : T → T' → Prop) (s : Delay T) (t : Delay T') : Prop where
  memory : List.Forall₂ R s.memory t.memory
  output : R s.output t.output
  read : s.read_ptr = t.read_ptr
  write : s.write_ptr = t.write_ptr
  delay : s.delay = t.delay

variable [Target] {b : Build} {s : Delay T} {t : Delay T'}

omit [FloatOps T] [FloatOps T'] in
theorem Delay.Rel.setDelay (h : s.Rel R t) (d : ℕ) : ResRel (Delay.Rel R) (s.setDelay b d) (t.setDelay b d) := by
  unfold Delay.setDelay
  rw [h.memory.length_eq, h.write]
  refine (ResRel.refl _).bind ?_
  rintro m _ rfl
  dsimp only
  split <;> split
  all_goals
    first
    | (refine (ResRel.refl _).bind ?_
       rintro r _ rfl
       first
       | exact ⟨h.memory, h.output, rfl, rfl, rfl⟩
       | (refine (ResRel.refl _).bind ?_
          rintro r _ rfl
          exact ⟨h.memory, h.output, rfl, rfl, rfl⟩))

omit [FloatOps T] [FloatOps T'] in
theorem Delay.Rel.process (h : s.Rel R t) {x : T} {y : T'} (hx : R x y) :
    ResRel (fun p q => p.1.Rel R q.1 ∧ R p.2 q.2) (s.process b x) (t.process b y) := by
  unfold Delay.process
  rw [h.write, h.read]
  refine (idxSet_rel h.memory _ hx).bind fun m m' hm => ?_
  rw [hm.length_eq]
  refine (ResRel.refl _).bind ?_
  rintro w _ rfl
  refine (ResRel.refl _).bind ?_
  rintro w' _ rfl
  refine (idx_rel hm _).bind fun o o' ho => ?_
  refine (ResRel.refl _).bind ?_
  rintro r _ rfl
  refine (ResRel.refl _).bind ?_
  rintro r' _ rfl
  exact ⟨⟨hm, ho, rfl, rfl, h.delay⟩, ho⟩

theorem Delay.Rel.step (h0 : R zero zero) (h : s.Rel R t) {op : DelayOp T} {op' : DelayOp T'} (ho : op.Rel R op') (hg : op.CanGrow) (hg' : op'.CanGrow)
    (ha : op.NoSum ∨ ∀ x x' y y', R x x' → R y y' → R (x +. y) (x' +. y')) :
    ResRel (fun p q => p.1.Rel R q.1 ∧ p.2.Rel R q.2) (s.step b op) (t.step b op') := by
  cases op <;> cases op' <;> first | exact ho.elim | skip
  · exact (h.process ho).bind fun p q hp => ⟨hp.1, hp.2⟩
  · cases ho
    exact (h.setDelay _).bind fun p q hp => ⟨hp, trivial⟩
  · cases ho
    rename_i m
    refine ResRel.bind (P := Delay.Rel R) ?_ fun p q hp => ⟨hp, trivial⟩
    unfold Delay.setMaxDelay
    rw [h.memory.length_eq]
    split
    · exact h
    · rename_i hlt
      rw [uAdd_ok (show m + 1 < usizeMod by
        have := le_isizeMax_of_mul (size_pos (T := T)) hg
        have := isizeMax_lt
        omega)]
      show ResRel _ (vecResize s.memory (m + 1) zero >>= _) (vecResize t.memory (m + 1) zero >>= _)
      unfold vecResize
      have hn : ¬ m + 1 ≤ t.memory.length := by omega
      rw [h.memory.length_eq, if_neg hn, if_neg hn, if_pos (show (m + 1) * size T ≤ isizeMax from hg), if_pos (show (m + 1) * size T' ≤ isizeMax from hg')]
      exact ⟨List.rel_append h.memory (replicate_rel h0 _), h.output, h.read, h.write, h.delay⟩
  · exact ⟨h, h.delay⟩
  · show ResRel _ (s.getMaxDelay b >>= _) (t.getMaxDelay b >>= _)
    unfold Delay.getMaxDelay
    rw [h.memory.length_eq]
    refine (ResRel.refl _).bind ?_
    rintro m _ rfl
    exact ⟨h, rfl⟩
  · refine ResRel.bind (P := R) ?_ fun p q hp => ⟨h, hp⟩
    unfold Delay.nextOut
    rw [h.read]
    exact idx_rel h.memory _
  · cases ho
    refine ResRel.bind (P := R) ?_ fun p q hp => ⟨h, hp⟩
    unfold Delay.tapOut
    rw [h.write, h.memory.length_eq]
    refine (ResRel.refl _).bind ?_
    rintro i _ rfl
    exact idx_rel h.memory _
  · obtain ⟨hv, rfl⟩ := ho
    refine ResRel.bind (P := Delay.Rel R) ?_ fun p q hp => ⟨hp, trivial⟩
    unfold Delay.tapIn
    rw [h.write, h.memory.length_eq]
    refine (ResRel.refl _).bind ?_
    rintro i _ rfl
    refine (idxSet_rel h.memory _ hv).bind fun m m' hm => ?_
    exact ⟨hm, h.output, h.read, rfl, h.delay⟩
  · obtain ⟨hv, rfl⟩ := ho
    have ha := ha.resolve_left id
    refine ResRel.bind (P := fun p q => p.1.Rel R q.1 ∧ R p.2 q.2) ?_ (by rintro ⟨p, u⟩ ⟨q, w⟩ hp; exact ⟨hp.1, hp.2⟩)
    unfold Delay.addTo
    rw [h.write, h.memory.length_eq]
    refine (ResRel.refl _).bind ?_
    rintro i _ rfl
    refine (idx_rel h.memory _).bind fun o o' ho => ?_
    refine (idxSet_rel h.memory _ (ha _ _ _ _ ho hv)).bind fun m m' hm => ?_
    refine (idx_rel hm _).bind fun o o' ho => ?_
    exact ⟨⟨hm, h.output, h.read, rfl, h.delay⟩, ho⟩
  · refine ⟨⟨?_, h0, h.read, h.write, h.delay⟩, trivial⟩
    show List.Forall₂ R (s.memory.map _) (t.memory.map _)
    rw [List.map_const', List.map_const', h.memory.length_eq]
    exact replicate_rel h0 _
  · exact ⟨h, h.output⟩

theorem Delay.Rel.run (h0 : R zero zero) (h : s.Rel R t) {ops : List (DelayOp T)} {ops' : List (DelayOp T')} (ho : List.Forall₂ (DelayOp.Rel R) ops ops')
    (hg : ∀ op ∈ ops, op.CanGrow) (hg' : ∀ op ∈ ops', op.CanGrow)
    (ha : (∀ op ∈ ops, op.NoSum) ∨ ∀ x x' y y', R x x' → R y y' → R (x +. y) (x' +. y')) :
    ResRel (fun p q => p.1.Rel R q.1 ∧ List.Forall₂ (Obs.Rel R) p.2 q.2) (s.run b ops) (t.run b ops') := by
  induction ho generalizing s t with
  | nil => exact ⟨h, .nil⟩
  | cons hop _ ih =>
    refine (h.step h0 hop (hg _ (by simp)) (hg' _ (by simp)) (ha.imp_left fun hn => hn _ (by simp))).bind fun p q hp => ?_
    refine (ih hp.1 (fun op hm => hg op (by simp [hm])) (fun op hm => hg' op (by simp [hm])) (ha.imp_left fun hn op hm => hn op (by simp [hm]))).bind
      fun p' q' hp' => ?_
    exact ⟨hp'.1, .cons hp.2 hp'.2⟩

theorem Delay.Rel.new (h0 : R zero zero) {d m : ℕ} (hm : Allocatable T m) (hm' : Allocatable T' m) :
    ResRel (Delay.Rel R) (Delay.new b d m) (Delay.new b d m) := by
  have hlen := le_isizeMax_of_mul (size_pos (T := T)) hm
  have := isizeMax_lt
  unfold Delay.new vecNew
  have e : uAdd b m 1 = .ok (m + 1) := uAdd_ok (by omega)
  simp only [e, Res.ok_bind, if_pos (show (m + 1) * size T ≤ isizeMax from hm), if_pos (show (m + 1) * size T' ≤ isizeMax from hm')]
  refine Delay.Rel.setDelay (R := R) ?_ _
  exact ⟨replicate_rel h0 _, h0, rfl, rfl, rfl⟩

/-- **C144.** A delay line does not look at its samples: related samples into two new lines, of whatever types, give related samples out and the same
numbers and panics, for every sequence of calls, provided zeros are related and, if `add_to` is called, sums of related samples. -/
theorem C144_delay_parametric (h0 : R zero zero) {d m : ℕ} (hm : Allocatable T m) (hm' : Allocatable T' m) {ops : List (DelayOp T)}
    {ops' : List (DelayOp T')} (ho : List.Forall₂ (DelayOp.Rel R) ops ops') (hg : ∀ op ∈ ops, op.CanGrow) (hg' : ∀ op ∈ ops', op.CanGrow)
    (ha : (∀ op ∈ ops, op.NoSum) ∨ ∀ x x' y y', R x x' → R y y' → R (x +. y) (x' +. y')) :
    ∃ (s : Delay T) (t : Delay T'), Delay.new b d m = .ok s ∧ Delay.new b d m = .ok t ∧
      ResRel (List.Forall₂ (Obs.Rel R)) ((s.run b ops).map Prod.snd) ((t.run b ops').map Prod.snd) := by
  obtain ⟨s, hs, -⟩ := (C10_delay_is_clipped (T := T) (b := b)).1 d m hm
  obtain ⟨t, ht, -⟩ := (C10_delay_is_clipped (T := T') (b := b)).1 d m hm'
  have hr := Delay.Rel.new (b := b) h0 (d := d) hm hm'
  rw [hs, ht] at hr
  exact ⟨s, t, hs, ht, (Delay.Rel.run h0 hr ho hg hg' ha).map fun _ _ h => h.2⟩

/-- **C144.** So converting the samples (to another precision, say) before or after the line is the same. -/
theorem C144_delay_conversion (φ : T → T') (h0 : φ zero = zero) {d m : ℕ} (hm : Allocatable T m) (hm' : Allocatable T' m) {ops : List (DelayOp T)}
    (hg : ∀ op ∈ ops, op.CanGrow) (hg' : ∀ op ∈ ops, (op.map φ).CanGrow) (ha : ∀ op ∈ ops, op.NoSum) :
    ∃ (s : Delay T) (t : Delay T'), Delay.new b d m = .ok s ∧ Delay.new b d m = .ok t ∧
      (t.run b (ops.map (DelayOp.map φ))).map Prod.snd = ((s.run b ops).map Prod.snd).map (List.map (Obs.map φ)) := by
  have ho : List.Forall₂ (DelayOp.Rel fun x y => y = φ x) ops (ops.map (DelayOp.map φ)) := by
    rw [List.forall₂_map_right_iff]
    exact List.forall₂_same.mpr fun op _ => by cases op <;> simp [DelayOp.Rel, DelayOp.map]
  obtain ⟨s, t, hs, ht, hr⟩ := C144_delay_parametric (b := b) (d := d) (R := fun x y => y = φ x) h0.symm hm hm' ho hg
    (fun op hop => by
      obtain ⟨o, h1, rfl⟩ := List.mem_map.mp hop
      exact hg' o h1) (.inl ha)
  refine ⟨s, t, hs, ht, ?_⟩
  generalize (s.run b ops).map Prod.snd = u at hr
  generalize (t.run b _).map Prod.snd = v at hr
  cases u <;> cases v
  · exact congrArg _ (Eq.symm hr)
  · exact hr.elim
  · exact hr.elim
  · refine congrArg _ ?_
    change List.Forall₂ _ _ _ at hr
    induction hr with
    | nil => rfl
    | cons h _ ih =>
      rw [List.map_cons, ih]
      congr 1
      rename_i o o' _ _ _
      cases o <;> cases o' <;> first | exact h.elim | rfl | exact congrArg _ h | exact congrArg _ (Eq.symm h)

/-! ## Two floating-point formats -/

variable {f f' : Fmt} {L : Libm f} {L' : Libm f'} {X E E' : ℝ}

omit [Target] in
/-- **C144.** Two formats that both stay close to exact arithmetic stay close to each other. -/
theorem C144_formats {σ τ ρ : Type} [Processor σ (Fl L)] [Processor τ (Fl L')] [Processor ρ ℝ] {s : σ} {t : τ} {r : ρ} (hs : Tracks s r X E)
    (ht : Tracks t r X E') (hb : ∀ (b b' : Build) (x y : ℕ → ℝ), Responds b r x y → Responds b' r x y) : FormatsAgree s t X (E + E') := by
  refine ⟨hs.1, ht.1, fun b b' x y x' y' hx hx' he hy hy' n => ?_⟩
  obtain ⟨z, hz⟩ := hs.2.1 b fun n => (x n).toReal
  obtain ⟨k1, k2⟩ := hs.2.2 b x y z hx hy hz n
  obtain ⟨k3, k4⟩ := ht.2.2 b' x' y' z (fun n => ⟨hx' n, by rw [he n]; exact (hx n).2⟩) hy' (by
    rw [show (fun n => (x' n).toReal) = fun n => (x n).toReal from funext he]
    exact hb b b' _ _ hz) n
  refine ⟨k1, k3, ?_⟩
  rw [abs_le] at *
  constructor <;> linarith [k2.1, k2.2, k4.1, k4.2]

omit [Target] in
/-- **C144.** The analysers. -/
theorem C144_analysers {g : ℝ} (hX : 2 * X ≤ 2 ^ f.emax) (hX' : 2 * X ≤ 2 ^ f'.emax) :
    (∀ (s : LeakyIntegrator (Fl L)) (t : LeakyIntegrator (Fl L')), s.alpha.Finite → 0 ≤ s.alpha.toReal → s.alpha.toReal < 1 → t.alpha.Finite →
      s.alpha.toReal = t.alpha.toReal → s.y_z1.Within X → t.y_z1.Finite → s.y_z1.toReal = t.y_z1.toReal →
      FormatsAgree s t X (6 * (f.u * X + f.tiny) / (1 - s.alpha.toReal) + 6 * (f'.u * X + f'.tiny) / (1 - s.alpha.toReal))) ∧
    (∀ (s : PeakEnvDetector (Fl L)) (t : PeakEnvDetector (Fl L')), g < 1 → s.attack_gain.Gain g → s.release_gain.Gain g → t.attack_gain.Finite →
      t.release_gain.Finite → s.attack_gain.toReal = t.attack_gain.toReal → s.release_gain.toReal = t.release_gain.toReal →
      s.envelope.Within X → t.envelope.Finite → s.envelope.toReal = t.envelope.toReal →
      FormatsAgree s t X (6 * (f.u * X + f.tiny) / (1 - g) + 6 * (f'.u * X + f'.tiny) / (1 - g))) := by
  refine ⟨fun s t h1 h2 h3 h4 h5 h6 h7 h8 => ?_, fun s t hg h1 h2 h3 h4 h5 h6 h7 h8 h9 => ?_⟩
  · have ht := C74_leaky (s := t) (X := X) h4 (by rw [← h5]; exact h2) (by rw [← h5]; exact h3) ⟨h7, by rw [← h8]; exact h6.2⟩ hX'
    rw [← h5, show t.exact = s.exact by simp only [LeakyIntegrator.exact, h5, h8]] at ht
    exact C144_formats (C74_leaky h1 h2 h3 h6 hX) ht fun _ _ _ _ h => h
  · have ht := C74_peak (s := t) (X := X) hg (g := g) ⟨h3, by rw [← h5]; exact h1.2⟩ ⟨h4, by rw [← h6]; exact h2.2⟩ ⟨h8, by rw [← h9]; exact h7.2⟩ hX'
    rw [show t.exact = s.exact by simp only [PeakEnvDetector.exact, h5, h6, h9]] at ht
    exact C144_formats (C74_peak hg h1 h2 h7 hX) ht fun _ _ _ _ h => h

omit [Target] in
/-- **C144.** The rbj filters without gain, set to the same values in two formats. -/
theorem C144_rbj {k k' : ℝ} {sr fc q : Fl L} {sr' fc' q' : Fl L'} (hL : AccurateTrig L k) (hL' : AccurateTrig L' k') (hf : f.Roomy) (hf' : f'.Roomy)
    (hk : 0 ≤ k) (hk' : 0 ≤ k') (h : Resolved k sr fc q) (h' : Resolved k' sr' fc' q') (e1 : sr'.toReal = sr.toReal) (e2 : fc'.toReal = fc.toReal)
    (e3 : q'.toReal = q.toReal) (hX : 0 ≤ X) (hr : 191808 * (X + f.tiny) ≤ rbjMargin sr.toReal fc.toReal q.toReal ^ 2 * 2 ^ f.emax)
    (hr' : 191808 * (X + f'.tiny) ≤ rbjMargin sr.toReal fc.toReal q.toReal ^ 2 * 2 ^ f'.emax) :
    (∀ (s : LowPass (Fl L)) (t : LowPass (Fl L')), FormatsAgree (s.setCoefficients sr fc q) (t.setCoefficients sr' fc' q') X
      (rbjBound f k sr.toReal fc.toReal q.toReal X + rbjBound f' k' sr.toReal fc.toReal q.toReal X)) ∧
    (∀ (s : HighPass (Fl L)) (t : HighPass (Fl L')), FormatsAgree (s.setCoefficients sr fc q) (t.setCoefficients sr' fc' q') X
      (rbjBound f k sr.toReal fc.toReal q.toReal X + rbjBound f' k' sr.toReal fc.toReal q.toReal X)) ∧
    (∀ (s : BandPass1 (Fl L)) (t : BandPass1 (Fl L')), FormatsAgree (s.setCoefficients sr fc q) (t.setCoefficients sr' fc' q') X
      (rbjBound f k sr.toReal fc.toReal q.toReal X + rbjBound f' k' sr.toReal fc.toReal q.toReal X)) ∧
    (∀ (s : BandPass2 (Fl L)) (t : BandPass2 (Fl L')), FormatsAgree (s.setCoefficients sr fc q) (t.setCoefficients sr' fc' q') X
      (rbjBound f k sr.toReal fc.toReal q.toReal X + rbjBound f' k' sr.toReal fc.toReal q.toReal X)) ∧
    (∀ (s : BandStop (Fl L)) (t : BandStop (Fl L')), FormatsAgree (s.setCoefficients sr fc q) (t.setCoefficients sr' fc' q') X
      (rbjBound f k sr.toReal fc.toReal q.toReal X + rbjBound f' k' sr.toReal fc.toReal q.toReal X)) ∧
    (∀ (s : AllPass (Fl L)) (t : AllPass (Fl L')), FormatsAgree (s.setCoefficients sr fc q) (t.setCoefficients sr' fc' q') X
      (rbjBound f k sr.toReal fc.toReal q.toReal X + rbjBound f' k' sr.toReal fc.toReal q.toReal X)) := by
  obtain ⟨t1, t2, t3, t4, t5, t6⟩ := C83_tracks hL hf hk h hX hr
  obtain ⟨u1, u2, u3, u4, u5, u6⟩ := C83_tracks hL' hf' hk' h' hX (by rw [e1, e2, e3]; exact hr')
  rw [e1, e2, e3] at u1 u2 u3 u4 u5 u6
  exact ⟨fun s t => C144_formats (t1 s LowPass.new) (u1 t _) fun _ _ _ _ h => h, fun s t => C144_formats (t2 s HighPass.new) (u2 t _) fun _ _ _ _ h => h,
    fun s t => C144_formats (t3 s BandPass1.new) (u3 t _) fun _ _ _ _ h => h, fun s t => C144_formats (t4 s BandPass2.new) (u4 t _) fun _ _ _ _ h => h,
    fun s t => C144_formats (t5 s BandStop.new) (u5 t _) fun _ _ _ _ h => h, fun s t => C144_formats (t6 s AllPass.new) (u6 t _) fun _ _ _ _ h => h⟩

/-- **C144.** Windows in f32 and f64. -/
theorem C144_windows {L : Libm binary32} {L' : Libm binary64} (hL : AccurateCos L 2) (hL' : AccurateCos L' 2) (b b' : Build) (kind : WindowKind) (n : ℕ)
    (h2 : 2 ≤ n) (hn : n < usizeMod) (o : ℕ → Option (Fl L)) (o' : ℕ → Option (Fl L')) (h : Yields b kind n o) (h' : Yields b' kind n o') (i : ℕ)
    (hi : i < n) : ∃ v v', o i = some v ∧ o' i = some v' ∧ v.Finite ∧ v'.Finite ∧ |v.toReal - v'.toReal| ≤ 3.2e-6 := by
  obtain ⟨v, h1, h3, h4⟩ := C97_f32 hL b kind n h2 hn o h i hi
  obtain ⟨v', h1', h3', h4'⟩ := C97_f64 hL' b' kind n h2 hn o' h' i hi
  refine ⟨v, v', h1, h1', h3, h3', ?_⟩
  rw [abs_le] at *
  constructor <;> linarith [h4.1, h4.2, h4'.1, h4'.2]

/-! ## Examples -/

/-- A line of f32 samples and one of f64 samples, related where the values are equal: after three calls the samples out are equal as well. -/
example {L : Libm binary32} {L' : Libm binary64} (b : Build) (x : Fl L) (x' : Fl L') (hx : x.toReal = x'.toReal)
    (hm : Allocatable (Fl L) 5) (hm' : Allocatable (Fl L') 5) :
    ∃ (s : Delay (Fl L)) (t : Delay (Fl L')), Delay.new b 2 5 = .ok s ∧ Delay.new b 2 5 = .ok t ∧
      ResRel (List.Forall₂ (Obs.Rel fun u v => u.toReal = v.toReal)) ((s.run b [.process x, .setDelay 0, .nextOut]).map Prod.snd)
        ((t.run b [.process x', .setDelay 0, .nextOut]).map Prod.snd) :=
  C144_delay_parametric (by rw [Fl.zero_toReal, Fl.zero_toReal]) hm hm' (.cons hx (.cons rfl (.cons trivial .nil))) (by simp [DelayOp.CanGrow])
    (by simp [DelayOp.CanGrow]) (.inl (by simp [DelayOp.NoSum]))

/-- With `add_to` the relation must respect sums, as doubling does. -/
example (b : Build) (hm : Allocatable ℝ 1) : ∃ s t : Delay ℝ, Delay.new b 0 1 = .ok s ∧ Delay.new b 0 1 = .ok t ∧
    ResRel (List.Forall₂ (Obs.Rel fun u v => v = 2 * u)) ((s.run b [.process 1, .addTo 3 0]).map Prod.snd) ((t.run b [.process 2, .addTo 6 0]).map Prod.snd) :=
  C144_delay_parametric (by simp) hm hm (.cons (by norm_num [DelayOp.Rel]) (.cons (by norm_num [DelayOp.Rel]) .nil)) (by simp [DelayOp.CanGrow])
    (by simp [DelayOp.CanGrow]) (.inr fun x x' y y' h h' => by rw [real_add, real_add, h, h']; ring)

omit [Target] in
/-- A new leaky integrator in f32 and in f64: samples in [-1, 1] differ by less than a millionth. -/
example {L : Libm binary32} {L' : Libm binary64} : FormatsAgree (LeakyIntegrator.new : LeakyIntegrator (Fl L)) (LeakyIntegrator.new : LeakyIntegrator (Fl L')) 1
    (6 * (binary32.u * 1 + binary32.tiny) / (1 - (0 : ℝ)) + 6 * (binary64.u * 1 + binary64.tiny) / (1 - (0 : ℝ))) := by
  have z : (LeakyIntegrator.new : LeakyIntegrator (Fl L)).alpha.toReal = 0 := Fl.zero_toReal
  have h := (C144_analysers (L := L) (L' := L') (X := 1) (g := 0) (by norm_num [binary32]) (by
      rw [mul_one]
      exact (pow_one (2 : ℝ)).symm.le.trans (pow_le_pow_right₀ (by norm_num) (by decide)))).1 LeakyIntegrator.new LeakyIntegrator.new
    Fl.zero_finite (by rw [z]) (by rw [z]; norm_num) Fl.zero_finite (Fl.zero_toReal.trans Fl.zero_toReal.symm)
    ⟨Fl.zero_finite, by rw [show (LeakyIntegrator.new : LeakyIntegrator (Fl L)).y_z1.toReal = 0 from Fl.zero_toReal]; norm_num⟩ Fl.zero_finite
    (Fl.zero_toReal.trans Fl.zero_toReal.symm)
  rw [z] at h
  exact h

end Rasp
