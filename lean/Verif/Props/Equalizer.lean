import Verif.Spec.Equalizer
import Verif.Props.GainRange
import Verif.Props.Shape
import Verif.Props.Series
import Verif.Props.Rbj
import Verif.Props.Convolution

/-!
# C163: equalizers
-/

namespace Rasp
open Filter hiding pi
open Real (cos sin pi)
variable {b : Build} {sr w A φ g θ : ℝ} {bs cs : List Band} {x y z : ℕ → ℝ}

theorem settles_stage {σ : Type} [Processor σ ℝ] {s : σ} (hl : IsLinear s) (hv : Vanishes s)
    (hg : ConvergesTo s (fun n => A * cos (w * n + φ)) (fun n => g * A * cos (w * n + φ + θ))) (hx : SettlesTo x A w φ) (hz : Responds b s x z) :
    SettlesTo z (g * A) w (φ + θ) := by
  obtain ⟨y1, h1⟩ := hl.1 b (fun n : ℕ => A * cos (w * n + φ))
  obtain ⟨y2, h2⟩ := hl.1 b (fun n : ℕ => x n - A * cos (w * n + φ))
  have h3 := hl.2 b _ _ _ _ 1 1 h1 h2
  have e : (fun n : ℕ => 1 * (A * cos (w * n + φ)) + 1 * (x n - A * cos (w * n + φ))) = x := by funext n; ring
  rw [e] at h3
  rw [Responds.unique hz h3]
  have := (hg.2 b y1 h1).add (hv.2 b _ _ h2 hx)
  unfold SettlesTo
  rw [add_zero] at this
  refine this.congr fun n => ?_
  rw [← add_assoc]
  ring

theorem Band.linear (sr : ℝ) : ∀ p : Band, IsLinear (p.stage sr).state
  | .peak s f db q => (s.implements sr f db q).isLinear
  | .low s f db S => (s.implements sr f db S).isLinear
  | .high s f db S => (s.implements sr f db S).isLinear

theorem Band.vanishes : ∀ p : Band, p.Valid sr → Vanishes (p.stage sr).state
  | .peak s f db q, h => (s.implements sr f db q).from.vanishes (ValidParams.stablePeak h db)
  | .low s f db S, h => (s.implements sr f db S).from.vanishes (ValidShelf.stableLow h db)
  | .high s f db S, h => (s.implements sr f db S).from.vanishes (ValidShelf.stableHigh h db)

theorem Band.convolves (b : Build) (sr : ℝ) : ∀ p : Band, IsConvolution b (p.stage sr).state
  | .peak s f db q => (C87_rbj b sr f q db 0).2.2.2.2.2.2.1 s
  | .low s f db S => (C87_rbj b sr f 0 db S).2.2.2.2.2.2.2.1 s
  | .high s f db S => (C87_rbj b sr f 0 db S).2.2.2.2.2.2.2.2 s

theorem dbFactor_zero' : dbFactor 0 = 1 := by unfold dbFactor; norm_num

theorem dbFactor_add' (p q : ℝ) : dbFactor (p + q) = dbFactor p * dbFactor q := by
  unfold dbFactor
  rw [add_div, Real.rpow_add (by norm_num)]

theorem dbFactor_pos' (p : ℝ) : 0 < dbFactor p := by unfold dbFactor; positivity

theorem dbFactor_le_iff (p q : ℝ) : dbFactor p ≤ dbFactor q ↔ p ≤ q := by
  unfold dbFactor
  rw [Real.rpow_le_rpow_left_iff (by norm_num)]
  constructor <;> intro h <;> linarith

/-- One gain in dB for every gain. -/
theorem dbFactor_surj (hg : 0 < g) : ∃ d, g = dbFactor d := by
  refine ⟨20 * Real.logb 10 g, ?_⟩
  unfold dbFactor
  rw [mul_div_cancel_left₀ _ (by norm_num : (20 : ℝ) ≠ 0), Real.rpow_logb (by norm_num) (by norm_num) hg]

theorem min_one_dbFactor (d : ℝ) : min 1 (dbFactor d) = dbFactor (min 0 d) := by
  rw [← dbFactor_zero']
  exact (Monotone.map_min (fun p q h => (dbFactor_le_iff p q).mpr h)).symm

theorem max_one_dbFactor (d : ℝ) : max 1 (dbFactor d) = dbFactor (max 0 d) := by
  rw [← dbFactor_zero']
  exact (Monotone.map_max (fun p q h => (dbFactor_le_iff p q).mpr h)).symm

/-- Every band has a gain between 0 dB and its own. -/
theorem Band.gain (w : ℝ) : ∀ p : Band, p.Valid sr → ∃ d θ : ℝ, min 0 p.db ≤ d ∧ d ≤ max 0 p.db ∧
    ∀ A φ : ℝ, ConvergesTo (p.stage sr).state (fun n => A * cos (w * n + φ)) (fun n => dbFactor d * A * cos (w * n + φ + θ)) := by
  have key : ∀ {σ : Type} [Processor σ ℝ] {s : σ} {db : ℝ}, GainWithin s w (min 1 (dbFactor db)) (max 1 (dbFactor db)) → ∃ d θ : ℝ, min 0 db ≤ d ∧ d ≤ max 0 db ∧
      ∀ A φ : ℝ, ConvergesTo s (fun n => A * cos (w * n + φ)) (fun n => dbFactor d * A * cos (w * n + φ + θ)) := by
    intro σ _ s db h
    obtain ⟨g, θ, h1, h2, h3⟩ := h
    rw [min_one_dbFactor] at h1
    rw [max_one_dbFactor] at h2
    obtain ⟨d, rfl⟩ := dbFactor_surj ((dbFactor_pos' _).trans_le h1)
    exact ⟨d, θ, (dbFactor_le_iff _ _).mp h1, (dbFactor_le_iff _ _).mp h2, h3⟩
  intro p h
  cases p with
  | peak s f db q => exact key ((C71_gain_range (sr := sr) (f := f) (q := q) h w).2.2.2.2.2.2 s db)
  | low s f db S => exact key ((C71_shelf_gain_range (sr := sr) (f := f) (S := S) h w db).1 s)
  | high s f db S => exact key ((C71_shelf_gain_range (sr := sr) (f := f) (S := S) h w db).2 s)

/-- **C163.** An equalizer: any number of `Peak`, `LowShelf` and `HighShelf` filters in series. It answers every stream, with exactly one. -/
theorem C163_runs (b : Build) (sr : ℝ) : ∀ (bs : List Band) (x : ℕ → ℝ), ∃! z, Through b (equalizer sr bs) x z
  | [], x => ⟨x, rfl, fun _ h => h⟩
  | p :: bs, x => by
    obtain ⟨v, hv⟩ := (p.linear sr).1 b x
    obtain ⟨z, hz, hu⟩ := C163_runs b sr bs v
    refine ⟨z, ⟨v, hv, hz⟩, fun z' h => ?_⟩
    obtain ⟨v', h1, h2⟩ := h
    rw [Responds.unique h1 hv] at h2
    exact hu z' h2

/-- **C163.** Gains in dB add up: if the bands have at `w` the gains `ds` in dB, the chain has their sum. -/
theorem C163_decibels (b : Build) : ∀ (bs : List Band) (ds : List ℝ), (∀ p ∈ bs, p.Valid sr) → List.Forall₂ (fun p d => HasGain (Band.stage sr p).state w (dbFactor d)) bs ds →
    ChainGain b (equalizer sr bs) w (dbFactor ds.sum)
  | [], _, _, .nil => ⟨0, fun A φ x z hx hz => by
      have : z = x := hz
      rw [this, List.sum_nil, dbFactor_zero', one_mul, add_zero]; exact hx⟩
  | p :: bs, d :: ds, h, .cons h1 h2 => by
    obtain ⟨θ, hθ⟩ := C163_decibels b bs ds (fun q hq => h q (List.mem_cons_of_mem _ hq)) h2
    obtain ⟨-, η, hη⟩ := h1
    refine ⟨η + θ, fun A φ x z hx hz => ?_⟩
    obtain ⟨v, hv1, hv2⟩ := hz
    have h3 := settles_stage (p.linear sr) (p.vanishes (h p List.mem_cons_self)) (hη A φ) hx hv1
    have h4 := hθ _ _ v z h3 hv2
    rw [List.sum_cons, dbFactor_add', mul_comm (dbFactor d), mul_assoc, ← add_assoc]
    exact h4

/-- **C163.** At every frequency the gain lies between the sum of the cuts and the sum of the boosts. -/
theorem C163_range (b : Build) (w : ℝ) (bs : List Band) (h : ∀ p ∈ bs, p.Valid sr) :
    ∃ d, (bs.map fun p => min 0 p.db).sum ≤ d ∧ d ≤ (bs.map fun p => max 0 p.db).sum ∧ ChainGain b (equalizer sr bs) w (dbFactor d) := by
  have key : ∀ bs : List Band, (∀ p ∈ bs, p.Valid sr) → ∃ ds : List ℝ, (bs.map fun p => min 0 p.db).sum ≤ ds.sum ∧ ds.sum ≤ (bs.map fun p => max 0 p.db).sum ∧
      List.Forall₂ (fun p d => HasGain (Band.stage sr p).state w (dbFactor d)) bs ds := by
    intro bs
    induction bs with
    | nil => exact fun _ => ⟨[], le_rfl, le_rfl, .nil⟩
    | cons p bs ih =>
      intro h
      obtain ⟨ds, h1, h2, h3⟩ := ih fun q hq => h q (List.mem_cons_of_mem _ hq)
      obtain ⟨d, θ, d1, d2, d3⟩ := Band.gain w p (h p List.mem_cons_self)
      exact ⟨d :: ds, by simpa using add_le_add d1 h1, by simpa using add_le_add d2 h2, .cons ⟨(dbFactor_pos' d).le, θ, d3⟩ h3⟩
  obtain ⟨ds, h1, h2, h3⟩ := key bs h
  exact ⟨ds.sum, h1, h2, C163_decibels b bs ds h h3⟩

/-- **C163.** At DC only the low shelves count, at Nyquist only the high ones, and the polarity is kept. -/
theorem C163_ends (b : Build) : ∀ bs : List Band, (∀ p ∈ bs, p.Valid sr) →
    (∀ (c : ℝ) (x z : ℕ → ℝ), Tendsto x atTop (nhds c) → Through b (equalizer sr bs) x z → Tendsto z atTop (nhds (dbFactor (bs.map Band.dbLow).sum * c))) ∧
    (∀ (c : ℝ) (x z : ℕ → ℝ), Tendsto (fun n => (-1) ^ n * x n) atTop (nhds c) → Through b (equalizer sr bs) x z →
      Tendsto (fun n => (-1) ^ n * z n) atTop (nhds (dbFactor (bs.map Band.dbHigh).sum * c))) := by
  have conv : ∀ (x : ℕ → ℝ) (c : ℝ), Tendsto x atTop (nhds c) ↔ SettlesTo x c 0 0 := fun x c => by
    unfold SettlesTo
    simp only [zero_mul, add_zero, Real.cos_zero, mul_one]
    exact (tendsto_sub_nhds_zero_iff).symm
  have alt : ∀ (x : ℕ → ℝ) (c : ℝ), Tendsto (fun n => (-1) ^ n * x n) atTop (nhds c) ↔ SettlesTo x c pi 0 := fun x c => by
    unfold SettlesTo
    rw [← tendsto_sub_nhds_zero_iff, tendsto_zero_iff_abs_tendsto_zero, tendsto_zero_iff_abs_tendsto_zero (f := fun n : ℕ => x n - _)]
    refine iff_of_eq (congrArg (Tendsto · atTop (nhds 0)) ?_)
    funext n
    have e : cos (pi * n + 0) = (-1) ^ n := by rw [add_zero, mul_comm, Real.cos_nat_mul_pi]
    have e2 : ((-1 : ℝ) ^ n) * (-1) ^ n = 1 := by rw [← mul_pow]; norm_num
    show |(-1) ^ n * x n - c| = |x n - c * cos (pi * n + 0)|
    rw [e, show (-1) ^ n * x n - c = (-1) ^ n * (x n - c * (-1) ^ n) + c * ((-1) ^ n * (-1) ^ n - 1) by ring, e2, sub_self, mul_zero, add_zero, abs_mul, abs_pow, abs_neg, abs_one,
      one_pow, one_mul]
  have ends : ∀ {σ : Type} [Processor σ ℝ] {s : σ} {g h : ℝ}, EndGains s g h →
      (∀ c : ℝ, ConvergesTo s (fun n => c * cos (0 * n + 0)) (fun n => g * c * cos (0 * n + 0 + 0))) ∧
      (∀ c : ℝ, ConvergesTo s (fun n => c * cos (pi * n + 0)) (fun n => h * c * cos (pi * n + 0 + 0))) := by
    intro σ _ s g h hs
    have e : ∀ n : ℕ, cos (pi * n + 0) = (-1) ^ n := fun n => by rw [add_zero, mul_comm, Real.cos_nat_mul_pi]
    refine ⟨fun c => ?_, fun c => ?_⟩
    · have := hs.1 c
      simpa using this
    · have := hs.2 c
      simp only [add_zero] at e ⊢
      simp only [e]
      convert this using 2 <;> ring
  intro bs
  induction bs with
  | nil =>
    intro _
    refine ⟨fun c x z hx hz => ?_, fun c x z hx hz => ?_⟩ <;>
    · have : z = x := hz
      rw [this]
      simpa [dbFactor_zero'] using hx
  | cons p bs ih =>
    intro h
    obtain ⟨i1, i2⟩ := ih fun q hq => h q (List.mem_cons_of_mem _ hq)
    have hp := h p List.mem_cons_self
    have hE : EndGains (p.stage sr).state (dbFactor p.dbLow) (dbFactor p.dbHigh) := by
      cases p with
      | peak s f db q =>
        have := (C39_end_gains (sr := sr) (f := f) (q := q) hp).2.2.2.2.2.2 s db
        simp only [Band.dbLow, Band.dbHigh, dbFactor_zero']
        exact this
      | low s f db S =>
        have := (C39_shelf_end_gains (sr := sr) (f := f) (S := S) hp db).1 s
        simp only [Band.dbLow, Band.dbHigh, dbFactor_zero']
        exact this
      | high s f db S =>
        have := (C39_shelf_end_gains (sr := sr) (f := f) (S := S) hp db).2 s
        simp only [Band.dbLow, Band.dbHigh, dbFactor_zero']
        exact this
    obtain ⟨e1, e2⟩ := ends hE
    refine ⟨fun c x z hx hz => ?_, fun c x z hx hz => ?_⟩
    · obtain ⟨v, hv1, hv2⟩ := hz
      have h3 := settles_stage (p.linear sr) (p.vanishes hp) (e1 c) ((conv x c).mp hx) hv1
      rw [add_zero, ← conv] at h3
      have := i1 _ v z h3 hv2
      rwa [List.map_cons, List.sum_cons, dbFactor_add', mul_comm (dbFactor p.dbLow), mul_assoc]
    · obtain ⟨v, hv1, hv2⟩ := hz
      have h3 := settles_stage (p.linear sr) (p.vanishes hp) (e2 c) ((alt x c).mp hx) hv1
      rw [add_zero, ← alt] at h3
      have := i2 _ v z h3 hv2
      rwa [List.map_cons, List.sum_cons, dbFactor_add', mul_comm (dbFactor p.dbHigh), mul_assoc]

/-- **C163.** The order of the bands does not matter: every sample is the same. -/
theorem C163_order (b : Build) (sr : ℝ) (h : bs.Perm cs) (x z : ℕ → ℝ) : Through b (equalizer sr bs) x z ↔ Through b (equalizer sr cs) x z := by
  induction h generalizing x with
  | nil => exact Iff.rfl
  | cons p _ ih =>
    constructor
    · rintro ⟨v, h1, h2⟩
      exact ⟨v, h1, (ih v).mp h2⟩
    · rintro ⟨v, h1, h2⟩
      exact ⟨v, h1, (ih v).mpr h2⟩
  | swap p q l =>
    have key : ∀ p q : Band, Through b (equalizer sr (p :: q :: l)) x z → Through b (equalizer sr (q :: p :: l)) x z := by
      rintro p q ⟨u, h1, v, h2, h3⟩
      obtain ⟨u', h4, h5⟩ := (C87_cascade_commutes (p.convolves b sr) (q.convolves b sr) x v).mp ⟨u, h1, h2⟩
      exact ⟨u', h4, v, h5, h3⟩
    exact ⟨key _ _, key _ _⟩
  | trans _ _ ih1 ih2 => exact (ih1 x).trans (ih2 x)

theorem through_append : ∀ (ps qs : List Stage) (x z : ℕ → ℝ), Through b (ps ++ qs) x z ↔ ∃ v, Through b ps x v ∧ Through b qs v z
  | [], qs, x, z => ⟨fun h => ⟨x, rfl, h⟩, fun ⟨v, h1, h2⟩ => by have : v = x := h1; rw [this] at h2; exact h2⟩
  | p :: ps, qs, x, z => by
    constructor
    · rintro ⟨u, h1, h2⟩
      obtain ⟨v, h3, h4⟩ := (through_append ps qs u z).mp h2
      exact ⟨v, ⟨u, h1, h3⟩, h4⟩
    · rintro ⟨v, ⟨u, h1, h3⟩, h4⟩
      exact ⟨u, h1, (through_append ps qs u z).mpr ⟨v, h3, h4⟩⟩

/-- A band and its opposite. -/
theorem Opposite.undoes : ∀ {p q : Band}, p.Valid sr → Opposite p q → ∀ x y, Responds b (p.stage sr).state x y → Responds b (q.stage sr).state y x
  | .peak s f db q, .peak t _ _ _, h, ⟨rfl, rfl, rfl⟩, x, y, hy => by
    obtain ⟨v, h1, h2⟩ := C43_peak_cancels (sr := sr) (f := f) (q := q) h s t db b x
    rwa [← Responds.unique hy h1] at h2
  | .low s f db S, .low t _ _ _, h, ⟨rfl, rfl, rfl⟩, x, y, hy => by
    obtain ⟨v, h1, h2⟩ := (C43_shelves_cancel (sr := sr) (f := f) (S := S) h db b x).1 s t
    rwa [← Responds.unique hy h1] at h2
  | .high s f db S, .high t _ _ _, h, ⟨rfl, rfl, rfl⟩, x, y, hy => by
    obtain ⟨v, h1, h2⟩ := (C43_shelves_cancel (sr := sr) (f := f) (S := S) h db b x).2 s t
    rwa [← Responds.unique hy h1] at h2

/-- **C163.** The opposite gains, in any order, undo an equalizer: every sample comes back as it was. -/
theorem C163_undone (b : Build) {bs cs ds : List Band} (h : ∀ p ∈ bs, p.Valid sr) (ho : List.Forall₂ Opposite bs cs) (hp : cs.Perm ds) (x y : ℕ → ℝ)
    (hy : Through b (equalizer sr bs) x y) : Through b (equalizer sr ds) y x := by
  rw [← C163_order b sr (cs.reverse_perm.trans hp)]
  induction ho generalizing x ds with
  | nil => exact Eq.symm hy
  | @cons p q bs cs h1 h2 ih =>
    obtain ⟨v, hv1, hv2⟩ := hy
    have h3 := ih (fun r hr => h r (List.mem_cons_of_mem _ hr)) (List.Perm.refl cs) v hv2
    rw [List.reverse_cons, equalizer, List.map_append, through_append]
    exact ⟨v, h3, x, h1.undoes (h p List.mem_cons_self) x v hv1, rfl⟩

/-- Three bands at 48 kHz, boosted by 6 dB at the low end, cut by 3 dB at 1 kHz, boosted by 2 dB at the high end. -/
example (b : Build) (l : LowShelf ℝ) (p : Peak ℝ) (t : HighShelf ℝ) (w : ℝ) :
    ∃ d, -3 ≤ d ∧ d ≤ 8 ∧ ChainGain b (equalizer 48000 [.low l 100 6 1, .peak p 1000 (-3) 2, .high t 8000 2 (1 / 2)]) w (dbFactor d) := by
  obtain ⟨d, h1, h2, h3⟩ := C163_range (sr := 48000) b w [.low l 100 6 1, .peak p 1000 (-3) 2, .high t 8000 2 (1 / 2)] (by
    intro q hq
    simp only [List.mem_cons, List.not_mem_nil, or_false] at hq
    rcases hq with rfl | rfl | rfl <;> simp only [Band.Valid, ValidParams, ValidShelf] <;> norm_num)
  refine ⟨d, ?_, ?_, h3⟩
  · refine le_trans (le_of_eq ?_) h1
    simp only [List.map_cons, List.map_nil, List.sum_cons, List.sum_nil, Band.db]
    norm_num
  · refine le_trans h2 (le_of_eq ?_)
    simp only [List.map_cons, List.map_nil, List.sum_cons, List.sum_nil, Band.db]
    norm_num

/-- Two bands undone by two others, not in the opposite order. -/
example (b : Build) (l l' : LowShelf ℝ) (p p' : Peak ℝ) (x y : ℕ → ℝ) (hy : Through b (equalizer 48000 [.low l 100 6 1, .peak p 1000 (-3) 2]) x y) :
    Through b (equalizer 48000 [.low l' 100 (-6) 1, .peak p' 1000 3 2]) y x := by
  refine C163_undone (sr := 48000) b ?_ (.cons ?_ (.cons ?_ .nil)) (List.Perm.refl _) x y hy
  · intro q hq
    simp only [List.mem_cons, List.not_mem_nil, or_false] at hq
    rcases hq with rfl | rfl <;> simp only [Band.Valid, ValidParams, ValidShelf] <;> norm_num
  · exact ⟨rfl, rfl, rfl⟩
  · exact ⟨rfl, by norm_num, rfl⟩

/-- `C163_decibels` on one band at its own frequency. -/
example (b : Build) (p : Peak ℝ) : ChainGain b (equalizer 48000 [.peak p 1000 4 2]) (angle 48000 1000) (dbFactor [(4 : ℝ)].sum) := by
  have hv : ValidParams 48000 1000 2 := by constructor <;> norm_num
  refine C163_decibels b [.peak p 1000 4 2] [4] (fun q hq => by rw [List.mem_singleton.mp hq]; exact hv) (.cons ⟨(dbFactor_pos' 4).le, 0, fun A φ => ?_⟩ .nil)
  have := (C40_centre_gains hv A φ).2.2.2.1 p 4
  simp only [add_zero]
  exact this

end Rasp
