import Mathlib.Analysis.Real.Pi.Irrational
import Verif.Model.RField
import Verif.Props.RIexApp
import Verif.Props.RGac
import Verif.Props.RPac
import Verif.Props.Fouling

/-! Property C271: the numbers of the fields are the numbers of the run. -/
set_option autoImplicit false
namespace WTM

/-! ### Specification -/

/-- Specification: `x` is written with at most `d` decimals. -/
def Spec.Decimals (d : ℕ) (x : ℝ) : Prop := ∃ n : ℤ, x * 10 ^ d = n

/-- Specification: the numbers of the ion-exchange form have no more decimals than the fields keep. -/
structure Spec.IexDecimals (f : RIexForm) : Prop where
  cap : Spec.Decimals 2 f.Q
  bead : Spec.Decimals 5 f.rbv
  bed : Spec.Decimals 3 f.ebed
  pore : Spec.Decimals 3 f.epor
  len : Spec.Decimals 3 f.Lv
  vel : Spec.Decimals 3 f.Vv
  dia : Spec.Decimals 3 f.Dv
  flo : Spec.Decimals 5 f.Fv

/-- Specification: the same of the carbon application. -/
structure Spec.GacDecimals (f : RGacForm) : Prop where
  particle : Spec.Decimals 4 f.prv
  pore : Spec.Decimals 3 f.epor
  dens : Spec.Decimals 3 f.pd
  app : Spec.Decimals 3 f.ad
  ratio : Spec.Decimals 3 f.psdfr
  len : Spec.Decimals 3 f.Lv
  vel : Spec.Decimals 3 f.Vv
  dia : Spec.Decimals 3 f.Dv
  flo : Spec.Decimals 2 f.Fv
  weight : Spec.Decimals 3 f.wv
  tort : Spec.Decimals 3 f.tortu

/-- Specification: the same of the powdered carbon application. -/
structure Spec.PacDecimals (f : RPacForm) : Prop where
  warm : Spec.Decimals 3 f.temp
  side : Spec.Decimals 4 f.ld
  high : Spec.Decimals 3 f.height
  volume : Spec.Decimals 3 f.vol
  flo : Spec.Decimals 3 f.flow
  dens : Spec.Decimals 4 f.den
  pore : Spec.Decimals 3 f.por
  radius : Spec.Decimals 5 f.rad

/-- C271. The run is that of the numbers that were entered: parameters of the ion-exchange run, table of the carbon run, tables of
the powdered carbon run. -/
def C271 : Prop := (∀ f : RIexForm, rIexParams (rIexField f) = rIexParams f) ∧ (∀ f : RGacForm, rColumnAll (rGacField f) = rColumnAll f) ∧
  ∀ f : RPacForm, (rPacField f).rows = f.rows

/-! ### One field -/

theorem pow10_pos (d : ℕ) : (0 : ℝ) < 10 ^ d := by positivity

/-- C271. The field holds a number with its decimals, less than half a unit of the last away, and no such number is nearer. -/
theorem c271_nearest (d : ℕ) (x : ℝ) : Spec.Decimals d (rField d x) ∧ |rField d x - x| ≤ 1 / 2 / 10 ^ d ∧
    ∀ y, Spec.Decimals d y → |rField d x - x| ≤ |y - x| := by
  have hp := pow10_pos d
  have key : ∀ z : ℝ, |((round (z * 10 ^ d) : ℤ) : ℝ) / 10 ^ d - z| = |z * 10 ^ d - (round (z * 10 ^ d) : ℤ)| / 10 ^ d := by
    intro z
    rw [show ((round (z * 10 ^ d) : ℤ) : ℝ) / 10 ^ d - z = -((z * 10 ^ d - (round (z * 10 ^ d) : ℤ)) / 10 ^ d) by field_simp; ring, abs_neg,
      abs_div, abs_of_pos hp]
  have near : ∀ z : ℝ, |((round (z * 10 ^ d) : ℤ) : ℝ) / 10 ^ d - z| ≤ 1 / 2 / 10 ^ d ∧
      ∀ y, Spec.Decimals d y → |((round (z * 10 ^ d) : ℤ) : ℝ) / 10 ^ d - z| ≤ |y - z| := by
    intro z
    refine ⟨?_, fun y ⟨n, hn⟩ => ?_⟩
    · rw [key]
      exact div_le_div_of_nonneg_right (abs_sub_round _) hp.le
    · rw [key, div_le_iff₀ hp]
      refine (round_le (z * 10 ^ d) n).trans ?_
      rw [← hn, ← sub_mul, abs_mul, abs_of_pos hp, abs_sub_comm]
  unfold rField
  by_cases hx : x < 0
  · simp only [if_pos hx]
    refine ⟨⟨-round (-x * 10 ^ d), ?_⟩, ?_, fun y hy => ?_⟩
    · push_cast
      field_simp
    · have := (near (-x)).1
      rwa [show -(((round (-x * 10 ^ d) : ℤ) : ℝ) / 10 ^ d) - x = -(((round (-x * 10 ^ d) : ℤ) : ℝ) / 10 ^ d - -x) by ring, abs_neg]
    · have := (near (-x)).2 (-y) (by obtain ⟨n, hn⟩ := hy; exact ⟨-n, by push_cast; rw [← hn]; ring⟩)
      rwa [show -(((round (-x * 10 ^ d) : ℤ) : ℝ) / 10 ^ d) - x = -(((round (-x * 10 ^ d) : ℤ) : ℝ) / 10 ^ d - -x) by ring, abs_neg,
        show y - x = -(-y - -x) by ring, abs_neg]
  · simp only [if_neg hx]
    exact ⟨⟨round (x * 10 ^ d), by field_simp⟩, near x⟩

/-- C271. A field keeps a number as it is exactly when it has no more decimals than the field. -/
theorem c271_exact (d : ℕ) (x : ℝ) : rField d x = x ↔ Spec.Decimals d x := by
  refine ⟨fun h => h ▸ (c271_nearest d x).1, fun h => ?_⟩
  have := (c271_nearest d x).2.2 x h
  rw [sub_self, abs_zero] at this
  exact sub_eq_zero.1 (abs_eq_zero.1 (le_antisymm this (abs_nonneg _)))

/-- C271. What a field holds it holds for good: sending it again, as after saving and uploading, changes nothing. -/
theorem c271_again (d : ℕ) (x : ℝ) : rField d (rField d x) = rField d x := (c271_exact d _).2 (c271_nearest d x).1

/-- C271. A number below half a unit of the last decimal becomes zero. -/
theorem c271_zero {d : ℕ} {x : ℝ} (h : |x| < 1 / 2 / 10 ^ d) : rField d x = 0 := by
  have hp := pow10_pos d
  have hx : |x| * 10 ^ d < 1 / 2 := by rwa [lt_div_iff₀ hp] at h
  have h00 : 0 ≤ |x| * 10 ^ d := by positivity
  have hr : round (|x| * 10 ^ d) = 0 := round_eq_zero_iff.2 ⟨by linarith, hx⟩
  unfold rField
  by_cases h0 : x < 0
  · rw [abs_of_neg h0] at hr
    rw [if_pos h0, hr]
    simp
  · rw [abs_of_nonneg (not_lt.1 h0)] at hr
    rw [if_neg h0, hr]
    simp

/-- C271. Numbers of at least `k` digits up to the last decimal keep a relative error below one half of `10⁻ᵏ⁺¹`: with `d` decimals,
numbers from `10 ^ (k - 1 - d)` on. -/
theorem c271_digits (d k : ℕ) {x : ℝ} (h : 10 ^ k ≤ x * 10 ^ d) : |rField d x - x| ≤ 1 / 2 / 10 ^ k * x := by
  have hp := pow10_pos d
  have hk := pow10_pos k
  refine (c271_nearest d x).2.1.trans ?_
  rw [div_mul_eq_mul_div, div_le_div_iff₀ hp hk]
  nlinarith

/-! ### What fails -/

theorem round_bead : rField 5 0.0003375 = 0.00034 := by
  have hr : round ((0.0003375 : ℝ) * 10 ^ 5) = 34 := by
    rw [round_eq, Int.floor_eq_iff]
    norm_num
  unfold rField
  rw [if_neg (by norm_num), hr]
  norm_num

theorem round_particle : rField 4 0.000513 = 0.0005 := by
  have hr : round ((0.000513 : ℝ) * 10 ^ 4) = 5 := by
    rw [round_eq, Int.floor_eq_iff]
    norm_num
  unfold rField
  rw [if_neg (by norm_num), hr]
  norm_num

/-- C271 is false: the bead radius and the particle radius with which the forms start, entered in metres, and a powder of 3 µm. -/
theorem c271_false : (∃ f p, f.rbu = "m" ∧ f.rbv = 0.0003375 ∧ rIexParams (rIexField f) = some p ∧ p.rb = 0.034 ∧
      rIexParams f ≠ some p) ∧
    (∃ f c, f.pu = "m" ∧ f.prv = 0.000513 ∧ rColumnAll (rGacField f) = some c ∧ c.rad = 0.05 ∧ rColumnAll f ≠ some c) ∧
    (∃ f : RPacForm, f.rad = 0.000003 ∧ (rPacField f).rad = 0 ∧ (rPacField f).rows ≠ f.rows) ∧ ¬ C271 := by
  have h1 : ∃ f p, f.rbu = "m" ∧ f.rbv = 0.0003375 ∧ rIexParams (rIexField f) = some p ∧ p.rb = 0.034 ∧ rIexParams f ≠ some p := by
    refine ⟨⟨demoHyd, true, 1400, 0.35, 0.2, 0.0003375, "m", 7, 13, "hr"⟩, _, rfl, rfl, rfl, ?_, ?_⟩
    · show rField 5 0.0003375 * rM2cm = 0.034
      rw [round_bead]
      norm_num [rM2cm]
    · intro h
      have h' := congrArg (Option.map RIexParams.rb) h
      have h'' : some ((0.0003375 : ℝ) * rM2cm) = some (rField 5 0.0003375 * rM2cm) := h'
      rw [round_bead, Option.some.injEq] at h''
      norm_num [rM2cm] at h''
  refine ⟨h1, ?_, ?_, fun H => ?_⟩
  · refine ⟨⟨⟨⟨true, 0.123, "cm/s", 500, "mL/min", 10, "cm", 8, "cm"⟩, 0.000513, "m", 8500, "g", "ug", "days"⟩, 0.641, 5, 0.803, "g/ml", 0.5,
      "g/ml", 1, 7, 12, "Organic Free", "PFAS"⟩, _, rfl, rfl, rfl, ?_, ?_⟩
    · show rField 4 0.000513 * rM2cm = 0.05
      rw [round_particle]
      norm_num [rM2cm]
    · intro h
      have h' := congrArg (Option.map fun c : RColumnAll => c.rad) h
      have h'' : some ((0.000513 : ℝ) * rM2cm) = some (rField 4 0.000513 * rM2cm) := h'
      rw [round_particle, Option.some.injEq] at h''
      norm_num [rM2cm] at h''
  · have h0 : rField 5 0.000003 = 0 := c271_zero (by rw [abs_of_pos (by norm_num)]; norm_num)
    refine ⟨{ exForm with rad := 0.000003 }, rfl, h0, fun h => ?_⟩
    have h' := congrArg PacIn.radius h
    have h'' : some (some (rField 5 0.000003), exForm.radunits) = some (some (0.000003 : ℝ), exForm.radunits) := h'
    rw [h0] at h''
    simp only [Option.some.injEq, Prod.mk.injEq, and_true] at h''
    norm_num at h''
  · obtain ⟨f, p, -, -, hp, -, hne⟩ := h1
    exact hne ((H.1 f).symm.trans hp)

/-! ### What holds -/

/-- C271, as far as it holds: if the numbers have no more decimals than the fields. Missing: numbers with more, which are rounded
(`c271_false`). -/
theorem c271_partial : (∀ f, Spec.IexDecimals f → rIexField f = f) ∧ (∀ f, Spec.GacDecimals f → rGacField f = f) ∧
    ∀ f, Spec.PacDecimals f → rPacField f = f := by
  refine ⟨fun f h => ?_, fun f h => ?_, fun f h => ?_⟩
  · unfold rIexField
    rw [(c271_exact _ _).2 h.cap, (c271_exact _ _).2 h.bead, (c271_exact _ _).2 h.bed, (c271_exact _ _).2 h.pore, (c271_exact _ _).2 h.len,
      (c271_exact _ _).2 h.vel, (c271_exact _ _).2 h.dia, (c271_exact _ _).2 h.flo]
  · unfold rGacField
    rw [(c271_exact _ _).2 h.particle, (c271_exact _ _).2 h.pore, (c271_exact _ _).2 h.dens, (c271_exact _ _).2 h.app,
      (c271_exact _ _).2 h.ratio, (c271_exact _ _).2 h.len, (c271_exact _ _).2 h.vel, (c271_exact _ _).2 h.dia, (c271_exact _ _).2 h.flo,
      (c271_exact _ _).2 h.weight, (c271_exact _ _).2 h.tort]
  · unfold rPacField
    rw [(c271_exact _ _).2 h.warm, (c271_exact _ _).2 h.side, (c271_exact _ _).2 h.high, (c271_exact _ _).2 h.volume,
      (c271_exact _ _).2 h.flo, (c271_exact _ _).2 h.dens, (c271_exact _ _).2 h.pore, (c271_exact _ _).2 h.radius]

/-- C271. The run of the ion-exchange application against the entered numbers, the units being `l` and `r` centimetres: capacity, porosities,
length and bead radius are off by half a unit of the last decimal at most. -/
theorem c271_run {f : RIexForm} {p p' : RIexParams} (h : rIexParams f = some p) (h' : rIexParams (rIexField f) = some p') {l r : ℝ}
    (hl : rLength.lookup f.lu = some l) (hr : rLength.lookup f.rbu = some r) :
    |p'.Q - p.Q| ≤ 0.005 ∧ |p'.ebed - p.ebed| ≤ 0.0005 ∧ |p'.L - p.L| ≤ 0.0005 * |l| ∧ |p'.rb - p.rb| ≤ 0.000005 * |r| ∧
      p'.nr = p.nr ∧ p'.nz = p.nz ∧ p'.tconv = p.tconv := by
  unfold rIexParams at h h'
  simp only [Option.bind_eq_bind, Option.bind_eq_some_iff] at h h'
  obtain ⟨v, hv, l1, hl1, r1, hr1, t, ht, e⟩ := h
  obtain ⟨v', hv', l2, hl2, r2, hr2, t', ht', e'⟩ := h'
  obtain rfl := Option.some.inj e
  obtain rfl := Option.some.inj e'
  have hl2' : rLength.lookup f.lu = some l2 := hl2
  have hr2' : rLength.lookup f.rbu = some r2 := hr2
  have ht2' : rTimeIex.lookup f.tunits = some t' := ht'
  rw [hl] at hl1 hl2'
  rw [hr] at hr1 hr2'
  rw [ht] at ht2'
  obtain rfl := Option.some.inj hl1
  obtain rfl := Option.some.inj hr1
  obtain rfl := Option.some.inj hl2'
  obtain rfl := Option.some.inj hr2'
  obtain rfl := Option.some.inj ht2'
  have b : ∀ d x, |rField d x - x| ≤ 1 / 2 / 10 ^ d := fun d x => (c271_nearest d x).2.1
  refine ⟨?_, ?_, ?_, ?_, rfl, rfl, rfl⟩
  · exact (b 2 f.Q).trans (by norm_num)
  · exact (b 3 f.ebed).trans (by norm_num)
  · show |rField 3 f.Lv * l - f.Lv * l| ≤ _
    rw [← sub_mul, abs_mul]
    exact mul_le_mul_of_nonneg_right ((b 3 f.Lv).trans (by norm_num)) (abs_nonneg _)
  · show |rField 5 f.rbv * r - f.rbv * r| ≤ _
    rw [← sub_mul, abs_mul]
    exact mul_le_mul_of_nonneg_right ((b 5 f.rbv).trans (by norm_num)) (abs_nonneg _)

/-- C271. A velocity below 0.0005 in its unit runs as zero: half a millimetre a second, if it is given in m/s. -/
theorem c271_still {f : RIexForm} {p : RIexParams} (hl : f.linear = true) (hV : |f.Vv| < 0.0005) (h : rIexParams (rIexField f) = some p) :
    p.v = 0 := by
  unfold rIexParams at h
  simp only [Option.bind_eq_bind, Option.bind_eq_some_iff] at h
  obtain ⟨v, hv, l1, hl1, r1, hr1, t, ht, e⟩ := h
  obtain rfl := Option.some.inj e
  unfold rSpeed at hv
  rw [if_pos (show (rIexField f).linear = true from hl)] at hv
  obtain ⟨c, -, rfl⟩ := Option.map_eq_some_iff.1 hv
  have h0 : rField 3 f.Vv = 0 := c271_zero (by norm_num at hV ⊢; exact hV)
  show rField 3 f.Vv * c = 0
  rw [h0, zero_mul]

/-! ### Saved and uploaded again -/

theorem iexField_again (f : RIexForm) : rIexField (rIexField f) = rIexField f := by
  unfold rIexField
  simp only [c271_again]

/-- The form at rest runs as the numbers in its fields. -/
theorem shown_runs (f : RIexForm) : rIexParams (rIexShown f) = rIexParams (rIexField f) := by
  by_cases hl : f.linear = true
  · have : rIexSettle (rIexField f) = rIexField f := if_pos hl
    unfold rIexShown
    rw [this, iexField_again]
  · have hl' : f.linear = false := by simpa using hl
    unfold rIexShown rIexSettle
    rw [if_neg (show ¬ (rIexField f).linear = true from hl)]
    cases hv : rSpeed rFlowIex (rIexField f).toRHyd with
    | none =>
      simp only
      rw [iexField_again]
    | some v =>
      simp only
      unfold rIexParams rSpeed rIexField
      simp only [hl', Bool.false_eq_true, if_false, c271_again]

/-- The velocity on the form at rest. -/
theorem shown_speed {f : RIexForm} {v : ℝ} (hl : f.linear = false) (hv : rSpeed rFlowIex (rIexField f).toRHyd = some v) :
    rIexShown f = { rIexField f with Vv := rField 3 v, vu := "cm/s" } := by
  unfold rIexShown rIexSettle
  rw [if_neg (by show ¬ f.linear = true; simp [hl]), hv]
  simp only
  unfold rIexField
  simp only [c271_again]

/-- C271. Saved and uploaded again, a column given by its velocity runs as before; one given by its flow rate runs with the velocity of the
field, which is within 0.0005 cm/s. All else comes back. -/
theorem c271_saved (f f₀ : RIexForm) (p : RIexParams) (h : rIexParams (rIexField f) = some p) :
    ∃ p', rIexParams (rIexShown (rIexLoad (rIexSheet (rIexShown f)) f₀)) = some p' ∧ p' = { p with v := p'.v } ∧
      (f.linear = true → p' = p) ∧ (f.linear = false → p'.v = rField 3 p.v) ∧ |p'.v - p.v| ≤ 0.0005 := by
  have hload : ∀ g : RIexForm, rIexLoad (rIexSheet g) f₀ =
      { g with linear := true, Fv := f₀.Fv, fu := f₀.fu, Dv := f₀.Dv, du := f₀.du, epor := if g.psdm then g.epor else f₀.epor } := by
    intro g
    obtain ⟨⟨_, _, _, _, _, _, _, _, _⟩, psdm, _, _, _, _, _, _, _, _⟩ := g
    cases psdm <;> rfl
  have h' := h
  unfold rIexParams at h'
  simp only [Option.bind_eq_bind, Option.bind_eq_some_iff] at h'
  obtain ⟨v, hv, l, hl, r, hr, t, ht, e⟩ := h'
  obtain rfl := Option.some.inj e
  have hl' : rLength.lookup f.lu = some l := hl
  have hr' : rLength.lookup f.rbu = some r := hr
  have ht' : rTimeIex.lookup f.tunits = some t := ht
  rw [shown_runs, hload]
  by_cases hlin : f.linear = true
  · have hs : rIexShown f = rIexField f := by
      have : rIexSettle (rIexField f) = rIexField f := if_pos hlin
      unfold rIexShown
      rw [this, iexField_again]
    have hv' : (rVelocity.lookup f.vu).map (fun c => rField 3 f.Vv * c) = some v := by
      have := hv
      unfold rSpeed at this
      rwa [if_pos (show (rIexField f).linear = true from hlin)] at this
    refine ⟨_, ?_, rfl, fun _ => rfl, fun hf => absurd (hlin.symm.trans hf) (by simp), by rw [sub_self, abs_zero]; norm_num⟩
    rw [hs]
    unfold rIexParams rSpeed rIexField
    simp only [c271_again, if_true, hv', hl', hr', ht', Option.bind_eq_bind, Option.bind_some]
    cases f.psdm <;> simp [c271_again]
  · have hlin' : f.linear = false := by simpa using hlin
    rw [shown_speed hlin' hv]
    refine ⟨⟨rField 2 f.Q, rField 3 f.ebed, if f.psdm then some (rField 3 f.epor) else none, rField 3 f.Lv * l, rField 3 v, rField 5 f.rbv * r,
      f.nr, f.nz, t⟩, ?_, rfl, fun hf => absurd hf hlin, fun _ => rfl, (c271_nearest 3 v).2.1.trans (by norm_num)⟩
    unfold rIexParams rSpeed rIexField
    have hc : rVelocity.lookup "cm/s" = some 1 := rfl
    simp only [c271_again, if_true, hc, hl', hr', ht', Option.bind_eq_bind, Option.bind_some, Option.map_some, mul_one]
    cases f.psdm <;> simp [c271_again]

theorem field_rat (d : ℕ) (x : ℝ) : ∃ q : ℚ, rField d x = q := by
  obtain ⟨n, hn⟩ := (c271_nearest d x).1
  refine ⟨n / 10 ^ d, ?_⟩
  push_cast
  rw [← hn]
  field_simp

theorem flow_rat {u : String} {c : ℝ} (h : rFlowIex.lookup u = some c) : ∃ q : ℚ, c = q ∧ q ≠ 0 := by
  have hm := lookup_mem h
  simp only [rFlowIex, List.mem_cons, Prod.mk.injEq, List.not_mem_nil, or_false] at hm
  rcases hm with ⟨-, rfl⟩ | ⟨-, rfl⟩ | ⟨-, rfl⟩ | ⟨-, rfl⟩ | ⟨-, rfl⟩ | ⟨-, rfl⟩ | ⟨-, rfl⟩ | ⟨-, rfl⟩
  · exact ⟨1, by norm_num, by norm_num⟩
  · exact ⟨100 ^ 3, by norm_num [rM2cm], by norm_num⟩
  · exact ⟨(12 * 2.54) ^ 3, by norm_num [rFt2cm, rIn2cm], by norm_num⟩
  · exact ⟨1, by norm_num, by norm_num⟩
  · exact ⟨1000 / 60, by norm_num [rL2ml, rMin2sec], by norm_num⟩
  · exact ⟨1 / 60, by norm_num [rMin2sec], by norm_num⟩
  · exact ⟨3785.411784 / 60, by norm_num [rGal2ml, rMin2sec], by norm_num⟩
  · exact ⟨1e6 * 3785.411784 / 86400, by norm_num [rMgd2mlps, rGal2ml, rDay2sec, rHour2sec, rMin2sec], by norm_num⟩

theorem length_rat {u : String} {c : ℝ} (h : rLength.lookup u = some c) : ∃ q : ℚ, c = q ∧ q ≠ 0 := by
  have hm := lookup_mem h
  simp only [rLength, List.mem_cons, Prod.mk.injEq, List.not_mem_nil, or_false] at hm
  rcases hm with ⟨-, rfl⟩ | ⟨-, rfl⟩ | ⟨-, rfl⟩ | ⟨-, rfl⟩ | ⟨-, rfl⟩
  · exact ⟨100, by norm_num [rM2cm], by norm_num⟩
  · exact ⟨1, by norm_num, by norm_num⟩
  · exact ⟨0.1, by norm_num [rMm2cm], by norm_num⟩
  · exact ⟨2.54, by norm_num [rIn2cm], by norm_num⟩
  · exact ⟨12 * 2.54, by norm_num [rFt2cm, rIn2cm], by norm_num⟩

/-- C271. A column given by a flow rate never comes back as it was: its velocity is a rational number over π, that of the field has three
decimals. -/
theorem c271_flow (f f₀ : RIexForm) (p p' : RIexParams) (hl : f.linear = false) (hF : rField 5 f.Fv ≠ 0) (hD : rField 3 f.Dv ≠ 0)
    (h : rIexParams (rIexField f) = some p) (h' : rIexParams (rIexShown (rIexLoad (rIexSheet (rIexShown f)) f₀)) = some p') :
    p'.v ≠ p.v := by
  obtain ⟨p'', h1, -, -, h2, -⟩ := c271_saved f f₀ p h
  obtain rfl := Option.some.inj (h'.symm.trans h1)
  rw [h2 hl]
  unfold rIexParams at h
  simp only [Option.bind_eq_bind, Option.bind_eq_some_iff] at h
  obtain ⟨v, hv, l, -, r, -, t, -, e⟩ := h
  obtain rfl := Option.some.inj e
  unfold rSpeed at hv
  rw [if_neg (by show ¬ f.linear = true; simp [hl])] at hv
  simp only [Option.bind_eq_bind, Option.bind_eq_some_iff] at hv
  obtain ⟨c, hc, d, hd, e⟩ := hv
  have e' : rField 5 f.Fv * c / (Real.pi / 4 * (rField 3 f.Dv * d) ^ 2) = v := Option.some.inj e
  obtain ⟨c', rfl, hc'⟩ := flow_rat hc
  obtain ⟨d', rfl, hd'⟩ := length_rat hd
  obtain ⟨F, hF'⟩ := field_rat 5 f.Fv
  obtain ⟨D, hD'⟩ := field_rat 3 f.Dv
  obtain ⟨w, hw⟩ := field_rat 3 v
  show rField 3 v ≠ v
  intro hc
  rw [hw] at hc
  rw [hF', hD', ← hc] at e'
  rw [hF'] at hF
  rw [hD'] at hD
  have hF0 : F ≠ 0 := by exact_mod_cast hF
  have hD0 : D ≠ 0 := by exact_mod_cast hD
  have hpi : Real.pi ≠ 0 := Real.pi_ne_zero
  have hcr : (c' : ℝ) ≠ 0 := by exact_mod_cast hc'
  have hdr : (d' : ℝ) ≠ 0 := by exact_mod_cast hd'
  have hw0 : (w : ℝ) ≠ 0 := by
    rw [← e']
    positivity
  have : Real.pi = ((F * c' * 4 / ((D * d') ^ 2 * w) : ℚ) : ℝ) := by
    push_cast
    field_simp at e' ⊢
    linarith
  exact irrational_pi ⟨_, this.symm⟩

/-- The form with which the application starts keeps its numbers. -/
example : Spec.IexDecimals ⟨⟨true, 0.123, "cm/s", 1.546, "cm^3/s", 4, "cm", 14.765, "cm"⟩, true, 1400, 0.35, 0.2, 0.03375, "cm", 7, 13, "hr"⟩ :=
  ⟨⟨140000, by norm_num⟩, ⟨3375, by norm_num⟩, ⟨350, by norm_num⟩, ⟨200, by norm_num⟩, ⟨14765, by norm_num⟩, ⟨123, by norm_num⟩,
    ⟨4000, by norm_num⟩, ⟨154600, by norm_num⟩⟩

/-- The same column by its flow rate: 1.546 mL/s on 4 cm. It runs, and is not the same after saving and uploading. -/
example : ∃ (f : RIexForm) (p p' : RIexParams), f.linear = false ∧ f.Fv = 1.546 ∧ rIexParams (rIexField f) = some p ∧
    rIexParams (rIexShown (rIexLoad (rIexSheet (rIexShown f)) f)) = some p' ∧ p'.v ≠ p.v ∧ |p'.v - p.v| ≤ 0.0005 := by
  have e1 : rField 5 1.546 = 1.546 := (c271_exact _ _).2 ⟨154600, by norm_num⟩
  have e2 : rField 3 4 = 4 := (c271_exact _ _).2 ⟨4000, by norm_num⟩
  obtain ⟨p', h1, -, -, -, h2⟩ := c271_saved ⟨⟨false, 0.123, "cm/s", 1.546, "cm^3/s", 4, "cm", 14.765, "cm"⟩, true, 1400, 0.35, 0.2, 0.03375,
    "cm", 7, 13, "hr"⟩ ⟨⟨false, 0.123, "cm/s", 1.546, "cm^3/s", 4, "cm", 14.765, "cm"⟩, true, 1400, 0.35, 0.2, 0.03375, "cm", 7, 13, "hr"⟩ _ rfl
  exact ⟨_, _, p', rfl, rfl, rfl, h1, c271_flow _ _ _ _ rfl (by show rField 5 1.546 ≠ 0; rw [e1]; norm_num)
    (by show rField 3 4 ≠ 0; rw [e2]; norm_num) rfl h1, h2⟩

/-- The form of the powdered carbon application keeps its numbers. -/
example : Spec.PacDecimals exForm :=
  ⟨⟨10000, by norm_num [exForm]⟩, ⟨100000, by norm_num [exForm]⟩, ⟨5000, by norm_num [exForm]⟩, ⟨500000000, by norm_num [exForm]⟩,
    ⟨5000, by norm_num [exForm]⟩, ⟨8034, by norm_num [exForm]⟩, ⟨641, by norm_num [exForm]⟩, ⟨103, by norm_num [exForm]⟩⟩

end WTM
