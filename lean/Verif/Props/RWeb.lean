import Mathlib.Tactic
import Verif.Model.RWeb
import Verif.Spec.Web

/-! C139-C143: units of the web applications. -/
set_option autoImplicit false
namespace WTM

/-- The menus of the forms: Ion_Exchange_Model.R:91-95, 1416, 1496-1505, GACapp.R:92-102, 801. -/
def lengthMenu : List String := ["cm", "m", "mm", "in", "ft"]
def velocityMenu : List String := ["cm/s", "m/s", "m/min", "m/h", "in/s", "ft/s", "ft/min", "gpm/ft^2"]
def flowMenu : List String := ["cm^3/s", "m^3/s", "ft^3/s", "mL/s", "L/min", "mL/min", "gpm", "mgd"]
def timeMenu : List String := ["Hours", "Days", "Months", "Years"]

theorem length_converts : Spec.Converts rLength Spec.lengthUnits (1 / 100) 0 lengthMenu := by
  intro u hu
  simp only [lengthMenu, List.mem_cons, List.not_mem_nil, or_false] at hu
  rcases hu with rfl | rfl | rfl | rfl | rfl <;> refine ⟨_, _, rfl, rfl, ?_, ?_⟩ <;>
    norm_num [Spec.inch, Spec.foot, rM2cm, rMm2cm, rIn2cm, rFt2cm]

theorem velocity_converts : Spec.Converts rVelocity Spec.velocityUnits (1 / 100) 1e-11 velocityMenu := by
  intro u hu
  simp only [velocityMenu, List.mem_cons, List.not_mem_nil, or_false] at hu
  rcases hu with rfl | rfl | rfl | rfl | rfl | rfl | rfl | rfl <;> refine ⟨_, _, rfl, rfl, ?_, ?_⟩ <;>
    norm_num [Spec.inch, Spec.foot, Spec.gallon, Spec.minute, Spec.hour, rM2cm, rIn2cm, rFt2cm, rMin2sec, rHour2sec,
      rGal2ft3, abs_le]

theorem flow_converts : Spec.Converts rFlowIex Spec.flowUnits 1e-6 0 flowMenu := by
  intro u hu
  simp only [flowMenu, List.mem_cons, List.not_mem_nil, or_false] at hu
  rcases hu with rfl | rfl | rfl | rfl | rfl | rfl | rfl | rfl <;> refine ⟨_, _, rfl, rfl, ?_, ?_⟩ <;>
    norm_num [Spec.inch, Spec.foot, Spec.gallon, Spec.minute, Spec.hour, Spec.day, Spec.litre, rM2cm, rIn2cm, rFt2cm,
      rMin2sec, rHour2sec, rDay2sec, rGal2ml, rL2ml, rMgd2mlps]

/-- C139: the unit tables of the ion-exchange application turn every unit on its menus into cm, cm/s, mL/s, cm²/s and s.
All are exact but gpm/ft², which is right to eleven digits. -/
theorem c139_units :
    Spec.Converts rLength Spec.lengthUnits (1 / 100) 0 lengthMenu ∧
    Spec.Converts rVelocity Spec.velocityUnits (1 / 100) 0 ["cm/s", "m/s", "m/min", "m/h", "m/hr", "in/s", "ft/s", "ft/min"] ∧
    Spec.Converts rVelocity Spec.velocityUnits (1 / 100) 1e-11 velocityMenu ∧
    Spec.Converts rFlowIex Spec.flowUnits 1e-6 0 flowMenu ∧
    Spec.Converts rKl Spec.velocityUnits (1 / 100) 0 ["ft/s", "m/s", "cm/s", "in/s", "m/min", "ft/min", "m/h", "m/hr"] ∧
    Spec.Converts rDs Spec.diffusionUnits ((1 / 100) ^ 2) 0 ["ft^2/s", "m^2/s", "cm^2/s", "in^2/s"] ∧
    Spec.Converts rTimeIex Spec.timeUnits 1 0 ["Hours", "Days", "Months", "Years", "hr", "day", "month", "year"] ∧
    Spec.Converts rMassIex Spec.massUnits 1 0 ["mg", "ug", "ng", "mg/L", "ug/L", "ng/L"] := by
  refine ⟨length_converts, ?_, velocity_converts, flow_converts, ?_, ?_, ?_, ?_⟩
  · intro u hu
    simp only [List.mem_cons, List.not_mem_nil, or_false] at hu
    rcases hu with rfl | rfl | rfl | rfl | rfl | rfl | rfl | rfl <;> refine ⟨_, _, rfl, rfl, ?_, ?_⟩ <;>
      norm_num [Spec.inch, Spec.foot, Spec.gallon, Spec.minute, Spec.hour, rM2cm, rIn2cm, rFt2cm, rMin2sec, rHour2sec]
  · intro u hu
    simp only [List.mem_cons, List.not_mem_nil, or_false] at hu
    rcases hu with rfl | rfl | rfl | rfl | rfl | rfl | rfl | rfl <;> refine ⟨_, _, rfl, rfl, ?_, ?_⟩ <;>
      norm_num [Spec.inch, Spec.foot, Spec.gallon, Spec.minute, Spec.hour, rM2cm, rIn2cm, rFt2cm, rMin2sec, rHour2sec]
  · intro u hu
    simp only [List.mem_cons, List.not_mem_nil, or_false] at hu
    rcases hu with rfl | rfl | rfl | rfl <;> refine ⟨_, _, rfl, rfl, ?_, ?_⟩ <;>
      norm_num [Spec.inch, Spec.foot, rM2cm, rIn2cm, rFt2cm]
  · intro u hu
    simp only [List.mem_cons, List.not_mem_nil, or_false] at hu
    rcases hu with rfl | rfl | rfl | rfl | rfl | rfl | rfl | rfl <;> refine ⟨_, _, rfl, rfl, ?_, ?_⟩ <;>
      norm_num [Spec.minute, Spec.hour, Spec.day, rMin2sec, rHour2sec, rDay2sec, rMonth2sec, rYear2sec]
  · intro u hu
    simp only [List.mem_cons, List.not_mem_nil, or_false] at hu
    rcases hu with rfl | rfl | rfl | rfl | rfl | rfl <;> refine ⟨_, _, rfl, rfl, ?_, ?_⟩ <;> norm_num

/-- All units of the form are on the menus. -/
def RHyd.Menu (h : RHyd) : Prop := h.vu ∈ velocityMenu ∧ h.fu ∈ flowMenu ∧ h.du ∈ lengthMenu ∧ h.lu ∈ lengthMenu

/-- Superficial velocity in m/s: as entered, or flow over cross section. -/
noncomputable def Spec.speed (h : RHyd) : Option ℝ :=
  if h.linear then (Spec.velocityUnits.lookup h.vu).map fun s => h.Vv * s
  else do
    let s ← Spec.flowUnits.lookup h.fu
    let d ← Spec.lengthUnits.lookup h.du
    some (h.Fv * s / (Real.pi / 4 * (h.Dv * d) ^ 2))

/-- Flow in m³/s: as entered, or velocity times cross section. -/
noncomputable def Spec.flow (h : RHyd) : Option ℝ :=
  if h.linear then do
    let s ← Spec.velocityUnits.lookup h.vu
    let d ← Spec.lengthUnits.lookup h.du
    some (h.Vv * s * (Real.pi / 4 * (h.Dv * d) ^ 2))
  else (Spec.flowUnits.lookup h.fu).map fun s => h.Fv * s

theorem exact_of {a b : ℝ} (h : |a - b| ≤ 0 * b) : b = a := by
  rw [zero_mul] at h
  exact (sub_eq_zero.1 (abs_nonpos_iff.1 h)).symm

/-- C139: the velocity handed to the ion-exchange solvers is the one entered, or the flow over the cross section. -/
theorem c139_speed (h : RHyd) (hm : h.Menu) :
    ∃ v s, rSpeed rFlowIex h = some v ∧ Spec.speed h = some s ∧ |v / 100 - s| ≤ 1e-11 * |s| := by
  obtain ⟨h1, h2, h3, -⟩ := hm
  obtain ⟨f, s, hf, hs, hs0, e⟩ := velocity_converts _ h1
  obtain ⟨g, t, hg, ht, ht0, e'⟩ := flow_converts _ h2
  obtain ⟨d, w, hd, hw, hw0, e''⟩ := length_converts _ h3
  by_cases hl : h.linear = true
  · refine ⟨h.Vv * f, h.Vv * s, ?_, ?_, ?_⟩
    · simp [rSpeed, hl, hf]
    · simp [Spec.speed, hl, hs]
    · rw [show h.Vv * f / 100 - h.Vv * s = h.Vv * (f * (1 / 100) - s) by ring, abs_mul, abs_mul, abs_of_pos hs0]
      nlinarith [abs_nonneg h.Vv]
  · refine ⟨h.Fv * g / (Real.pi / 4 * (h.Dv * d) ^ 2), h.Fv * t / (Real.pi / 4 * (h.Dv * w) ^ 2), ?_, ?_, ?_⟩
    · simp [rSpeed, hl, hg, hd]
    · simp [Spec.speed, hl, ht, hw]
    · rw [exact_of e', exact_of e'']
      have : h.Fv * g / (Real.pi / 4 * (h.Dv * d) ^ 2) / 100 - h.Fv * (g * 1e-6) / (Real.pi / 4 * (h.Dv * (d * (1 / 100))) ^ 2) = 0 := by
        rw [show Real.pi / 4 * (h.Dv * (d * (1 / 100))) ^ 2 = (Real.pi / 4 * (h.Dv * d) ^ 2) * (1 / 10000) by ring,
          show h.Fv * (g * 1e-6) / (Real.pi / 4 * (h.Dv * d) ^ 2 * (1 / 10000)) =
            h.Fv * g / (Real.pi / 4 * (h.Dv * d) ^ 2) / 100 by
              rw [← div_div]; ring]
        ring
      rw [this, abs_zero]
      positivity

/-- C139: the time axis of the ion-exchange plots, in every unit of time. -/
theorem c139_axis (h : RHyd) (hours : ℝ) {unit : String} (hu : unit ∈ timeMenu) :
    ∃ x s, rAxisIex h unit hours = some x ∧ Spec.timeUnits.lookup unit = some s ∧ x * s = hours * Spec.hour := by
  simp only [timeMenu, List.mem_cons, List.not_mem_nil, or_false] at hu
  rcases hu with rfl | rfl | rfl | rfl <;>
    refine ⟨_, _, by rw [rAxisIex, if_neg (by decide)]; rfl, rfl, ?_⟩ <;>
    norm_num [Spec.minute, Spec.hour, Spec.day, rMin2sec, rHour2sec, rDay2sec, rMonth2sec, rYear2sec] <;> ring

/-- C139: thousands of bed volumes on the axis, times the bed length, are the distance travelled. -/
theorem c139_bedvolumes (h : RHyd) (hm : h.Menu) (hL : h.Lv ≠ 0) (hours : ℝ) :
    ∃ x s l, rAxisIex h "Bed Volumes (x1000)" hours = some x ∧ Spec.speed h = some s ∧
      Spec.lengthUnits.lookup h.lu = some l ∧
      |x * 1000 * (h.Lv * l) - hours * Spec.hour * s| ≤ 1e-11 * |hours * Spec.hour * s| := by
  obtain ⟨v, s, hv, hs, e⟩ := c139_speed h hm
  obtain ⟨l, w, hl, hw, hw0, e'⟩ := length_converts _ hm.2.2.2
  refine ⟨hours / (h.Lv * l / v / rHour2sec) / 1e3, s, w, ?_, hs, hw, ?_⟩
  · rw [rAxisIex, if_pos rfl, rBv, hv]
    simp [hl]
  · have hw' := exact_of e'
    have hl0 : l ≠ 0 := by rintro rfl; rw [hw'] at hw0; norm_num at hw0
    have : hours / (h.Lv * l / v / rHour2sec) / 1e3 * 1000 * (h.Lv * w) = hours * Spec.hour * (v / 100) := by
      rw [hw']
      by_cases hv0 : v = 0
      · simp [hv0]
      · norm_num [Spec.hour, Spec.minute, rHour2sec, rMin2sec]
        field_simp
    rw [this, ← mul_sub, abs_mul, abs_mul (hours * Spec.hour) s, mul_left_comm]
    exact mul_le_mul_of_nonneg_left e (abs_nonneg _)

/-- C139: the plots and the solver read the times of the tables in the same way. -/
theorem c139_hours (t : ℝ) {u : String} (hu : u ∈ ["hr", "day"]) :
    ∃ s, Spec.timeUnits.lookup u = some s ∧ rTableHours u t * Spec.hour = t * s ∧
      ∃ x, rResultHours u t = some x ∧ x * Spec.hour = t * s := by
  simp only [List.mem_cons, List.not_mem_nil, or_false] at hu
  rcases hu with rfl | rfl
  · refine ⟨_, rfl, ?_, _, rfl, ?_⟩
    · rw [rTableHours, if_pos rfl]
    · norm_num [Spec.hour, Spec.minute, rHour2sec, rMin2sec]; ring
  · refine ⟨_, rfl, ?_, _, rfl, ?_⟩
    · rw [rTableHours, if_neg (by decide), Spec.day]; ring
    · norm_num [Spec.hour, Spec.minute, Spec.day, rHour2sec, rMin2sec, rDay2sec]; ring

/-- A form: 5 gpm through a column of 2 in and 4 ft. -/
noncomputable def demoHyd : RHyd := ⟨false, 0, "cm/s", 5, "gpm", 2, "in", 4, "ft"⟩

example : demoHyd.Menu ∧ demoHyd.Lv ≠ 0 := by
  refine ⟨?_, by norm_num [demoHyd]⟩
  simp [demoHyd, RHyd.Menu, velocityMenu, flowMenu, lengthMenu]

/-! ### Carbon application -/

/-- The flow units but million gallons a day. -/
theorem flowGac_converts :
    Spec.Converts rFlowGac Spec.flowUnits (1e-6 / 60) 0 ["cm^3/s", "m^3/s", "ft^3/s", "mL/s", "L/min", "mL/min", "gpm"] := by
  intro u hu
  simp only [List.mem_cons, List.not_mem_nil, or_false] at hu
  rcases hu with rfl | rfl | rfl | rfl | rfl | rfl | rfl <;> refine ⟨_, _, rfl, rfl, ?_, ?_⟩ <;>
    norm_num [Spec.inch, Spec.foot, Spec.gallon, Spec.minute, Spec.hour, Spec.day, Spec.litre, rM2cm, rIn2cm, rFt2cm,
      rMin2sec, rGal2ml, rL2ml]

theorem weight_converts : Spec.Converts rWeightGac Spec.weightUnits (1 / 1000) 2e-6 ["kg", "g", "lb"] := by
  intro u hu
  simp only [List.mem_cons, List.not_mem_nil, or_false] at hu
  rcases hu with rfl | rfl | rfl <;> refine ⟨_, _, rfl, rfl, ?_, ?_⟩ <;> norm_num [abs_le]

/-- All units of the form of the carbon application are on the menus. -/
def RGacIn.Menu (g : RGacIn) : Prop :=
  g.toRHyd.Menu ∧ g.pu ∈ lengthMenu ∧ g.wu ∈ ["kg", "g", "lb"] ∧ g.concUnits ∈ ["ug", "ng", "mg"] ∧
    g.tunits ∈ ["days", "hours", "hrs"]

/-- The column handed to the model is the one entered: lengths in cm, weight in g (to 2e-6), flow in mL/min, its factor to
litres, µg per unit of concentration and minutes per unit of time. -/
def Spec.ColumnRight (g : RGacIn) (c : RColumn) : Prop :=
  (∃ p l d, Spec.lengthUnits.lookup g.pu = some p ∧ Spec.lengthUnits.lookup g.lu = some l ∧
    Spec.lengthUnits.lookup g.du = some d ∧ c.rad / 100 = g.prv * p ∧ c.L / 100 = g.Lv * l ∧ c.diam / 100 = g.Dv * d) ∧
  (∃ w, Spec.weightUnits.lookup g.wu = some w ∧ |c.wt / 1000 - g.wv * w| ≤ 2e-6 * |g.wv * w|) ∧
  (∃ f, Spec.flow g.toRHyd = some f ∧ |c.flrt * (1e-6 / Spec.minute) - f| ≤ 1e-11 * |f|) ∧
  c.flowMult * 1000 = 1 ∧
  (∃ m, Spec.massUnits.lookup g.concUnits = some m ∧ c.massMul = m * 1000) ∧
  ∃ t, Spec.timeUnits.lookup g.tunits = some t ∧ c.tMult * Spec.minute = t

/-- The claim in full. -/
def C140 : Prop := ∀ g : RGacIn, g.Menu → ∃ c, rColumnData g = some c ∧ Spec.ColumnRight g c

theorem massMul_right {u : String} (h : u ∈ ["ug", "ng", "mg"]) :
    ∃ m, Spec.massUnits.lookup u = some m ∧ (if u = "ug" then (1 : ℝ) else if u = "ng" then 0.001 else 1000) = m * 1000 := by
  simp only [List.mem_cons, List.not_mem_nil, or_false] at h
  rcases h with rfl | rfl | rfl
  · exact ⟨_, rfl, by rw [if_pos rfl]; norm_num⟩
  · exact ⟨_, rfl, by rw [if_neg (by decide), if_pos rfl]; norm_num⟩
  · exact ⟨_, rfl, by rw [if_neg (by decide), if_neg (by decide)]; norm_num⟩

theorem tMult_right {u : String} (h : u ∈ ["days", "hours", "hrs"]) :
    ∃ t, Spec.timeUnits.lookup u = some t ∧ (if u = "days" then (1440 : ℝ) else 60) * Spec.minute = t := by
  simp only [List.mem_cons, List.not_mem_nil, or_false] at h
  rcases h with rfl | rfl | rfl
  · exact ⟨_, rfl, by rw [if_pos rfl]; norm_num [Spec.minute, Spec.day, Spec.hour]⟩
  · exact ⟨_, rfl, by rw [if_neg (by decide)]; norm_num [Spec.minute, Spec.day, Spec.hour]⟩
  · exact ⟨_, rfl, by rw [if_neg (by decide)]; norm_num [Spec.minute, Spec.day, Spec.hour]⟩

/-- The rest of the table is right whatever the flow. -/
theorem column_rest (g : RGacIn) (hm : g.Menu) {f : ℝ} (hf : rGacFlow g.toRHyd = some f) :
    ∃ c, rColumnData g = some c ∧ c.flrt = f ∧ ((∃ q, Spec.flow g.toRHyd = some q ∧
      |f * (1e-6 / Spec.minute) - q| ≤ 1e-11 * |q|) → Spec.ColumnRight g c) := by
  obtain ⟨⟨-, -, h3, h4⟩, h5, h6, h7, h8⟩ := hm
  obtain ⟨p, p', hp, hp', -, ep⟩ := length_converts _ h5
  obtain ⟨l, l', hl, hl', -, el⟩ := length_converts _ h4
  obtain ⟨d, d', hd, hd', -, ed⟩ := length_converts _ h3
  obtain ⟨w, w', hw, hw', hw0, ew⟩ := weight_converts _ h6
  refine ⟨⟨g.prv * p, g.Lv * l, g.wv * w, f, g.Dv * d,
    if g.concUnits = "ug" then 1 else if g.concUnits = "ng" then 0.001 else 1000, 0.001,
    if g.tunits = "days" then 1440 else 60⟩, ?_, rfl, fun hq => ⟨⟨p', l', d', hp', hl', hd', ?_, ?_, ?_⟩, ⟨w', hw', ?_⟩, hq,
      by norm_num, massMul_right h7, tMult_right h8⟩⟩
  · unfold rColumnData
    rw [hp, hl, hw, hf, hd]
    rfl
  · rw [exact_of ep]; ring
  · rw [exact_of el]; ring
  · rw [exact_of ed]; ring
  · rw [show g.wv * w / 1000 - g.wv * w' = g.wv * (w * (1 / 1000) - w') by ring, abs_mul, abs_mul, abs_of_pos hw0]
    nlinarith [abs_nonneg g.wv]

/-- C140, unless the flow is given in million gallons a day. -/
theorem c140_partial (g : RGacIn) (hm : g.Menu) (hf : g.linear = true ∨ g.fu ≠ "mgd") :
    ∃ c, rColumnData g = some c ∧ Spec.ColumnRight g c := by
  obtain ⟨h1, h2, h3, -⟩ := hm.1
  by_cases hl : g.linear = true
  · obtain ⟨f, s, hf', hs, hs0, e⟩ := velocity_converts _ h1
    obtain ⟨d, w, hd, hw, hw0, e'⟩ := length_converts _ h3
    have hr : rGacFlow g.toRHyd = some (Real.pi / 4 * (g.Dv * d) ^ 2 * g.Vv * f * rMin2sec) := by
      simp [rGacFlow, hl, hd, hf']
    obtain ⟨c, hc, -, h⟩ := column_rest g hm hr
    refine ⟨c, hc, h ⟨g.Vv * s * (Real.pi / 4 * (g.Dv * w) ^ 2), by simp [Spec.flow, hl, hs, hw], ?_⟩⟩
    rw [exact_of e',
      show Real.pi / 4 * (g.Dv * d) ^ 2 * g.Vv * f * rMin2sec * (1e-6 / Spec.minute) -
        g.Vv * s * (Real.pi / 4 * (g.Dv * (d * (1 / 100))) ^ 2) =
        g.Vv * (Real.pi / 4 * (g.Dv * (d * (1 / 100))) ^ 2) * (f * (1 / 100) - s) by
          norm_num [rMin2sec, Spec.minute]; ring,
      show g.Vv * s * (Real.pi / 4 * (g.Dv * (d * (1 / 100))) ^ 2) =
        g.Vv * (Real.pi / 4 * (g.Dv * (d * (1 / 100))) ^ 2) * s by ring, abs_mul, abs_mul _ s, abs_of_pos hs0, mul_left_comm (1e-11 : ℝ)]
    exact mul_le_mul_of_nonneg_left e (abs_nonneg _)
  · have hfu : g.fu ∈ ["cm^3/s", "m^3/s", "ft^3/s", "mL/s", "L/min", "mL/min", "gpm"] := by
      have h4 := hf.resolve_left hl
      simp only [flowMenu, List.mem_cons, List.not_mem_nil, or_false] at h2 ⊢
      tauto
    obtain ⟨f, s, hf', hs, hs0, e⟩ := flowGac_converts _ hfu
    have hr : rGacFlow g.toRHyd = some (g.Fv * f) := by simp [rGacFlow, hl, hf']
    obtain ⟨c, hc, -, h⟩ := column_rest g hm hr
    refine ⟨c, hc, h ⟨g.Fv * s, by simp [Spec.flow, hl, hs], ?_⟩⟩
    rw [exact_of e, show g.Fv * f * (1e-6 / Spec.minute) - g.Fv * (f * (1e-6 / 60)) = 0 by rw [Spec.minute]; ring, abs_zero]
    positivity

/-- C140: in million gallons a day the flow of the model is 1440 times the one entered. -/
theorem c140_mgd (g : RGacIn) (hm : g.Menu) (hl : g.linear = false) (hf : g.fu = "mgd") :
    ∃ c q, rColumnData g = some c ∧ Spec.flow g.toRHyd = some q ∧ c.flrt * (1e-6 / Spec.minute) = 1440 * q := by
  have hr : rGacFlow g.toRHyd = some (g.Fv * (1e6 * rGal2ml)) := by
    simp only [rGacFlow, hl, hf, Bool.false_eq_true, if_false]; rfl
  obtain ⟨c, hc, h, -⟩ := column_rest g hm hr
  refine ⟨c, g.Fv * (1000000 * Spec.gallon / Spec.day), hc, ?_, ?_⟩
  · simp only [Spec.flow, hl, hf, Bool.false_eq_true, if_false]; rfl
  · rw [h]
    norm_num [rGal2ml, Spec.gallon, Spec.inch, Spec.day, Spec.hour, Spec.minute]
    ring

/-- A full-scale bed with 0.5 mgd. -/
noncomputable def demoGac (fu : String) : RGacIn :=
  ⟨⟨false, 0, "cm/s", 0.5, fu, 10, "ft", 8, "ft"⟩, 0.5, "mm", 18000, "kg", "ng", "days"⟩

theorem demoGac_menu {fu : String} (h : fu ∈ flowMenu) : (demoGac fu).Menu := by
  refine ⟨⟨?_, h, ?_, ?_⟩, ?_, ?_, ?_, ?_⟩ <;> simp [demoGac, velocityMenu, lengthMenu]

theorem c140_false : ¬ C140 := by
  intro H
  have hm : (demoGac "mgd").Menu := demoGac_menu (by simp [flowMenu])
  obtain ⟨c, hc, -, -, ⟨q, hq, hb⟩, -⟩ := H _ hm
  obtain ⟨c', q', hc', hq', h⟩ := c140_mgd _ hm rfl rfl
  obtain rfl : c = c' := Option.some.inj (hc.symm.trans hc')
  obtain rfl : q = q' := Option.some.inj (hq.symm.trans hq')
  have hq0 : 0 < q := by
    have : q = 0.5 * (1000000 * Spec.gallon / Spec.day) := Option.some.inj (hq.symm.trans rfl)
    rw [this]; norm_num [Spec.gallon, Spec.inch, Spec.day, Spec.hour, Spec.minute]
  rw [h, abs_of_pos hq0, show 1440 * q - q = 1439 * q by ring, abs_of_pos (by positivity)] at hb
  norm_num at hb
  linarith

example : (demoGac "gpm").Menu ∧ ((demoGac "gpm").linear = true ∨ (demoGac "gpm").fu ≠ "mgd") :=
  ⟨demoGac_menu (by simp [flowMenu]), Or.inr (by decide)⟩

/-! ### Time axis of the carbon application -/

/-- The number the axis of the plot should show for time `t` of a table in `tunits`: the time in the unit chosen, or
thousands of bed lengths travelled. -/
def Spec.AxisRight (h : RHyd) (tunits unit : String) (t x : ℝ) : Prop :=
  ∃ a, Spec.timeUnits.lookup tunits = some a ∧
    if unit = "Bed Volumes (x1000)" then
      ∃ s l, Spec.speed h = some s ∧ Spec.lengthUnits.lookup h.lu = some l ∧
        |x * 1000 * (h.Lv * l) - t * a * s| ≤ 1e-11 * |t * a * s|
    else ∃ b, Spec.timeUnits.lookup unit = some b ∧ x * b = t * a

/-- The claim in full. -/
def C141 : Prop := ∀ (h : RHyd) (tunits unit : String) (t : ℝ), h.Menu → h.Lv ≠ 0 → tunits ∈ ["days", "hours", "hrs"] →
  unit ∈ "Bed Volumes (x1000)" :: timeMenu → ∃ x, rAxisGac h unit t = some x ∧ Spec.AxisRight h tunits unit t x

/-- C141 for tables in days shown in days, hours, months, or in bed volumes for a flow not in million gallons a day. -/
theorem c141_partial (h : RHyd) (unit : String) (t : ℝ) (hm : h.Menu) (hL : h.Lv ≠ 0)
    (hu : unit ∈ ["Days", "Hours", "Months"] ∨ unit = "Bed Volumes (x1000)" ∧ h.linear = false ∧ h.fu ≠ "mgd") :
    ∃ x, rAxisGac h unit t = some x ∧ Spec.AxisRight h "days" unit t x := by
  rcases hu with hu | ⟨rfl, hl, hf⟩
  · simp only [List.mem_cons, List.not_mem_nil, or_false] at hu
    rcases hu with rfl | rfl | rfl <;>
    refine ⟨_, by rw [rAxisGac, if_neg (by decide)]; rfl, _, rfl, ?_⟩ <;>
    rw [if_neg (by decide)] <;> refine ⟨_, rfl, ?_⟩ <;> norm_num [Spec.day, Spec.hour, Spec.minute] <;> ring
  · have hfu : h.fu ∈ ["cm^3/s", "m^3/s", "ft^3/s", "mL/s", "L/min", "mL/min", "gpm"] := by
      have h2 := hm.2.1
      simp only [flowMenu, List.mem_cons, List.not_mem_nil, or_false] at h2 ⊢
      tauto
    obtain ⟨f, s, hf', hs, hs0, e⟩ := flowGac_converts _ hfu
    obtain ⟨d, w, hd, hw, hw0, e'⟩ := length_converts _ hm.2.2.1
    obtain ⟨l, m, hl', hm', hm0, e''⟩ := length_converts _ hm.2.2.2
    have hl0 : l ≠ 0 := by rintro rfl; rw [exact_of e''] at hm0; norm_num at hm0
    refine ⟨t / (h.Lv * l / (h.Fv * f / (Real.pi / 4 * (h.Dv * d) ^ 2)) / (rDay2sec / rMin2sec)) / 1e3, ?_, _, rfl, ?_⟩
    · rw [rAxisGac, if_pos rfl]
      simp [rBv, rSpeed, hl, hf', hd, hl']
    · rw [if_pos rfl]
      refine ⟨h.Fv * s / (Real.pi / 4 * (h.Dv * w) ^ 2), m, by simp [Spec.speed, hl, hs, hw], hm', ?_⟩
      rw [exact_of e, exact_of e', exact_of e'']
      have : t / (h.Lv * l / (h.Fv * f / (Real.pi / 4 * (h.Dv * d) ^ 2)) / (rDay2sec / rMin2sec)) / 1e3 * 1000 *
          (h.Lv * (l * (1 / 100))) - t * Spec.day * (h.Fv * (f * (1e-6 / 60)) / (Real.pi / 4 * (h.Dv * (d * (1 / 100))) ^ 2)) = 0 := by
        rw [show Real.pi / 4 * (h.Dv * (d * (1 / 100))) ^ 2 = (Real.pi / 4 * (h.Dv * d) ^ 2) * (1 / 10000) by ring]
        generalize Real.pi / 4 * (h.Dv * d) ^ 2 = A
        norm_num [rDay2sec, rMin2sec, rHour2sec, Spec.day, Spec.hour, Spec.minute]
        by_cases hA : A = 0
        · simp [hA]
        by_cases hF : h.Fv = 0
        · simp [hF]
        by_cases hff : f = 0
        · simp [hff]
        field_simp
        ring
      rw [this, abs_zero]
      positivity

/-- C141: a table in hours is shown as if it were in days, every number 24 times too large. -/
theorem c141_hours (h : RHyd) (unit : String) (t : ℝ) (hu : unit ∈ ["Days", "Hours", "Months"]) :
    ∃ x a b, rAxisGac h unit t = some x ∧ Spec.timeUnits.lookup "hours" = some a ∧
      Spec.timeUnits.lookup unit = some b ∧ x * b = 24 * (t * a) := by
  simp only [List.mem_cons, List.not_mem_nil, or_false] at hu
  rcases hu with rfl | rfl | rfl <;>
    refine ⟨_, _, _, by rw [rAxisGac, if_neg (by decide)]; rfl, rfl, rfl, ?_⟩ <;>
    norm_num [Spec.day, Spec.hour, Spec.minute] <;> ring

/-- C141: years on the axis have 360 days. -/
theorem c141_years (h : RHyd) (t : ℝ) : rAxisGac h "Years" t = some (t / 360) := by
  rw [rAxisGac, if_neg (by decide)]
  show some (t * (1 / 30 / 12)) = _
  congr 1; ring

/-- C141: with the velocity entered, the bed volumes shown are a sixtieth of the true ones. -/
theorem c141_linear (h : RHyd) (t : ℝ) (hm : h.Menu) (hL : h.Lv ≠ 0) (hl : h.linear = true) :
    ∃ x s l, rAxisGac h "Bed Volumes (x1000)" t = some x ∧ Spec.speed h = some s ∧
      Spec.lengthUnits.lookup h.lu = some l ∧
      |60 * x * 1000 * (h.Lv * l) - t * Spec.day * s| ≤ 1e-11 * |t * Spec.day * s| := by
  obtain ⟨f, s, hf', hs, hs0, e⟩ := velocity_converts _ hm.1
  obtain ⟨l, m, hl', hm', hm0, e''⟩ := length_converts _ hm.2.2.2
  have hl0 : l ≠ 0 := by rintro rfl; rw [exact_of e''] at hm0; norm_num at hm0
  refine ⟨t / (h.Lv * l / (h.Vv * f) / (rDay2sec / rMin2sec)) / 1e3, h.Vv * s, m, ?_, ?_, hm', ?_⟩
  · rw [rAxisGac, if_pos rfl]
    simp [rBv, rSpeed, hl, hf', hl']
  · simp [Spec.speed, hl, hs]
  · have : 60 * (t / (h.Lv * l / (h.Vv * f) / (rDay2sec / rMin2sec)) / 1e3) * 1000 * (h.Lv * m) =
        t * Spec.day * (h.Vv * (f * (1 / 100))) := by
      rw [exact_of e'']
      norm_num [rDay2sec, rMin2sec, rHour2sec, Spec.day, Spec.hour, Spec.minute]
      by_cases hF : h.Vv = 0
      · simp [hF]
      by_cases hff : f = 0
      · simp [hff]
      field_simp
      ring
    rw [this, show t * Spec.day * (h.Vv * (f * (1 / 100))) - t * Spec.day * (h.Vv * s) =
      t * Spec.day * h.Vv * (f * (1 / 100) - s) by ring, show t * Spec.day * (h.Vv * s) = t * Spec.day * h.Vv * s by ring,
      abs_mul, abs_mul _ s, abs_of_pos hs0, mul_left_comm (1e-11 : ℝ)]
    exact mul_le_mul_of_nonneg_left e (abs_nonneg _)

theorem c141_false : ¬ C141 := by
  intro H
  obtain ⟨x, hx, a, ha, h⟩ := H demoHyd "hours" "Days" 1
    (by simp [demoHyd, RHyd.Menu, velocityMenu, flowMenu, lengthMenu]) (by norm_num [demoHyd]) (by simp) (by simp [timeMenu])
  rw [if_neg (by decide)] at h
  obtain ⟨b, hb, e⟩ := h
  obtain ⟨x', a', b', hx', ha', hb', e'⟩ := c141_hours demoHyd "Days" 1 (by simp)
  obtain rfl := Option.some.inj (hx.symm.trans hx')
  obtain rfl := Option.some.inj (ha.symm.trans ha')
  obtain rfl := Option.some.inj (hb.symm.trans hb')
  have : a = Spec.hour := Option.some.inj (ha.symm.trans rfl)
  rw [e, this] at e'
  norm_num [Spec.hour, Spec.minute] at e'

example : demoHyd.Menu ∧ demoHyd.Lv ≠ 0 ∧ demoHyd.linear = false ∧ demoHyd.fu ≠ "mgd" := by
  refine ⟨?_, by norm_num [demoHyd], rfl, by simp [demoHyd]⟩
  simp [demoHyd, RHyd.Menu, velocityMenu, flowMenu, lengthMenu]

/-! ### Concentration axis of the carbon application -/

/-- C142: concentrations are shown in the unit chosen, whatever the unit of the tables. -/
theorem c142_conc (c : ℝ) {u o : String} (hu : u ∈ ["ug", "ng", "mg"]) (ho : o ∈ ["mg/L", "ug/L", "ng/L"]) :
    ∃ x a b, rConcGac u o c = some x ∧ Spec.massUnits.lookup u = some a ∧ Spec.massUnits.lookup o = some b ∧
      x * b = c * a := by
  simp only [List.mem_cons, List.not_mem_nil, or_false] at hu ho
  rcases hu with rfl | rfl | rfl <;> rcases ho with rfl | rfl | rfl <;> refine ⟨_, _, _, rfl, rfl, rfl, ?_⟩ <;>
    norm_num <;> ring

/-- The claim in full: the c/c0 plot shows every compound over its own first influent concentration. -/
def C143 : Prop := ∀ (conc : List (String × ℝ)) (out : List (String × List ℝ)),
  (conc.map (·.1)).Nodup → (out.map (·.1)).Perm (conc.map (·.1)) →
  ∀ n ys c0, (n, ys) ∈ out → (n, c0) ∈ conc → (n, ys.map (· / c0)) ∈ rCc0Gac conc out

theorem cc0_same (conc : List (String × ℝ)) (out : List (String × List ℝ)) (hd : (conc.map (·.1)).Nodup)
    (ho : out.map (·.1) = conc.map (·.1)) (n : String) (ys : List ℝ) (c0 : ℝ) (h1 : (n, ys) ∈ out) (h2 : (n, c0) ∈ conc) :
    (n, ys.map (· / c0)) ∈ rCc0Gac conc out := by
  unfold rCc0Gac
  induction conc generalizing out with
  | nil => cases h2
  | cons c conc ih =>
    match out, ho with
    | o :: out, ho =>
      simp only [List.map_cons, List.cons.injEq, List.nodup_cons] at ho hd
      rw [List.zipWith_cons_cons]
      rcases List.mem_cons.1 h1 with rfl | h1
      · rcases List.mem_cons.1 h2 with rfl | h2
        · exact List.mem_cons_self
        · refine absurd (List.mem_map_of_mem (f := (·.1)) h2) ?_
          show n ∉ _
          have : n = c.1 := ho.1
          rw [this]; exact hd.1
      · rcases List.mem_cons.1 h2 with rfl | h2
        · refine absurd (List.mem_map_of_mem (f := (·.1)) h1) ?_
          rw [ho.2]; exact hd.1
        · exact List.mem_cons_of_mem _ (ih out hd.2 ho.2 h1 h2)

/-- C143, when the influent table lists the compounds in the order of the properties table. -/
theorem c143_partial (conc : List (String × ℝ)) (out : List (String × List ℝ)) (hd : (conc.map (·.1)).Nodup)
    (ho : out.map (·.1) = conc.map (·.1)) :
    (rCc0Gac conc out).map (·.1) = out.map (·.1) ∧
    ∀ n ys c0, (n, ys) ∈ out → (n, c0) ∈ conc → (n, ys.map (· / c0)) ∈ rCc0Gac conc out := by
  refine ⟨?_, cc0_same conc out hd ho⟩
  unfold rCc0Gac
  have hl : conc.length = out.length := by simpa using (congrArg List.length ho).symm
  clear hd ho
  induction conc generalizing out with
  | nil => cases out <;> simp at hl ⊢
  | cons c conc ih =>
    cases out with
    | nil => simp at hl
    | cons o out => simpa using ih out (by simpa using hl)

theorem c143_false : ¬ C143 := by
  intro H
  have h := H [("TCE", 2), ("PCE", 10)] [("PCE", [10]), ("TCE", [2])] (by decide) (by decide) "TCE" [2] 2 (by simp) (by simp)
  simp [rCc0Gac] at h
  norm_num at h

example : ([("TCE", (2 : ℝ)), ("PCE", 10)].map (·.1)).Nodup ∧
    [("TCE", [(1 : ℝ)]), ("PCE", [3])].map (·.1) = [("TCE", (2 : ℝ)), ("PCE", 10)].map (·.1) := ⟨by decide, rfl⟩

end WTM
