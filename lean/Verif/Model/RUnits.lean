import Mathlib.Data.Real.Basic

/-! Unit tables of the three web applications, written in R. An R named vector is an association list: `x["u"]` is the
first entry with that name, and `NA` (here `none`) when there is none. The constants are those of
Shiny-IEX/Ion_Exchange_Model.R:36-65, Shiny-GAC/GACapp.R:23-57 and Shiny-PAC/PACapp.R:22-60. -/
set_option autoImplicit false
namespace WTM
noncomputable section

def rM2cm : ℝ := 100            -- Ion_Exchange_Model.R:36
def rMm2cm : ℝ := 0.1           -- 37
def rIn2cm : ℝ := 2.54          -- 39
def rFt2cm : ℝ := 12 * rIn2cm   -- 40
def rMin2sec : ℝ := 60          -- 43
def rHour2sec : ℝ := 60 * rMin2sec     -- 45
def rDay2sec : ℝ := 24 * rHour2sec     -- 46
def rMonth2sec : ℝ := 30 * rDay2sec    -- 47
def rYear2sec : ℝ := 365.25 * rDay2sec -- 48
def rGal2ft3 : ℝ := 0.133680555556     -- 55
def rGal2ml : ℝ := 3785.411784         -- 63
def rMgd2mlps : ℝ := 1e6 * rGal2ml / rDay2sec -- 64
def rL2ml : ℝ := 1000                  -- 65

/-- `length_conv`, to cm: Ion_Exchange_Model.R:73, GACapp.R:65, PACapp.R:65. -/
def rLength : List (String × ℝ) := [("m", rM2cm), ("cm", 1), ("mm", rMm2cm), ("in", rIn2cm), ("ft", rFt2cm)]

/-- `velocity_conv`, to cm/s: Ion_Exchange_Model.R:74-76, GACapp.R:67-69. -/
def rVelocity : List (String × ℝ) :=
  [("cm/s", 1), ("m/s", rM2cm), ("m/min", rM2cm / rMin2sec), ("m/h", rM2cm / rHour2sec), ("m/hr", rM2cm / rHour2sec),
   ("in/s", rIn2cm), ("ft/s", rFt2cm), ("ft/min", rFt2cm / rMin2sec), ("gpm/ft^2", rGal2ft3 * rFt2cm / rMin2sec)]

/-- `volumetric_conv` of the ion-exchange application, to mL/s: Ion_Exchange_Model.R:77-79. -/
def rFlowIex : List (String × ℝ) :=
  [("cm^3/s", 1), ("m^3/s", rM2cm ^ 3), ("ft^3/s", rFt2cm ^ 3), ("mL/s", 1), ("L/min", rL2ml / rMin2sec),
   ("mL/min", 1 / rMin2sec), ("gpm", rGal2ml / rMin2sec), ("mgd", rMgd2mlps)]

/-- `volumetric_conv` of the carbon application, to mL/min: GACapp.R:71-73 (PACapp.R:71-73 is the same and not used). -/
def rFlowGac : List (String × ℝ) :=
  [("cm^3/s", 1 * rMin2sec), ("m^3/s", rMin2sec * rM2cm ^ 3), ("ft^3/s", rMin2sec * rFt2cm ^ 3), ("mL/s", rMin2sec * 1),
   ("L/min", rL2ml), ("mL/min", 1), ("gpm", rGal2ml), ("mgd", 1e6 * rGal2ml)]

/-- `time_conv` of the ion-exchange application, to s: Ion_Exchange_Model.R:80-81. -/
def rTimeIex : List (String × ℝ) :=
  [("Hours", rHour2sec), ("Days", rDay2sec), ("Months", rMonth2sec), ("Years", rYear2sec),
   ("hr", rHour2sec), ("day", rDay2sec), ("month", rMonth2sec), ("year", rYear2sec)]

/-- `time_conv` of the carbon application, units per day: GACapp.R:36-40, 76-78. -/
def rTimeGac : List (String × ℝ) :=
  [("Hours", 24), ("Days", 1), ("Months", 1 / 30), ("Years", 1 / 30 / 12), ("hr", 24), ("day", 1), ("month", 1 / 30),
   ("year", 1 / 30 / 12), ("hours", 24), ("days", 1), ("hrs", 24)]

/-- `kL_conv`, to cm/s: Ion_Exchange_Model.R:83-85. -/
def rKl : List (String × ℝ) :=
  [("ft/s", rFt2cm), ("m/s", rM2cm), ("cm/s", 1), ("in/s", rIn2cm), ("m/min", rM2cm / rMin2sec),
   ("ft/min", rFt2cm / rMin2sec), ("m/h", rM2cm / rHour2sec), ("m/hr", rM2cm / rHour2sec)]

/-- `ds_conv`, to cm²/s: Ion_Exchange_Model.R:57-59, 86-87. -/
def rDs : List (String × ℝ) := [("ft^2/s", rFt2cm ^ 2), ("m^2/s", rM2cm ^ 2), ("cm^2/s", 1), ("in^2/s", rIn2cm ^ 2)]

/-- `mass_conv` of the ion-exchange application, to mg: Ion_Exchange_Model.R:89. -/
def rMassIex : List (String × ℝ) :=
  [("meq", 1), ("meq/L", 1), ("mg", 1), ("ug", 1e-3), ("ng", 1e-6), ("mg/L", 1), ("ug/L", 1e-3), ("ng/L", 1e-6)]

/-- `mass_conv` of the carbon application, to µg: GACapp.R:86. -/
def rMassGac : List (String × ℝ) :=
  [("meq", 1000), ("meq/L", 1000), ("mg", 1000), ("ug", 1), ("ng", 1e-3), ("mg/L", 1000), ("ug/L", 1), ("ng/L", 1e-3)]

/-- `weight_conv` of the carbon application, to g: GACapp.R:90. -/
def rWeightGac : List (String × ℝ) := [("kg", 1000), ("g", 1), ("lb", 1000 / 2.20462)]

end
end WTM
