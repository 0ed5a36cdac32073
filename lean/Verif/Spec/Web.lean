import Mathlib.Data.Real.Basic

/-! Independent meaning of the units offered by the web applications, in SI units. Nothing here refers to the model.
Legal definitions: 1 in = 0.0254 m, 1 ft = 12 in, 1 US gallon = 231 in³, 1 lb = 0.45359237 kg. -/
set_option autoImplicit false
namespace WTM.Spec
noncomputable section

def inch : ℝ := 0.0254
def foot : ℝ := 12 * inch
def gallon : ℝ := 231 * inch ^ 3
def minute : ℝ := 60
def hour : ℝ := 60 * minute
def day : ℝ := 24 * hour
def litre : ℝ := 1 / 1000

/-- Metres. -/
def lengthUnits : List (String × ℝ) :=
  [("m", 1), ("cm", 1 / 100), ("mm", 1 / 1000), ("in", inch), ("ft", foot)]

/-- Metres per second. -/
def velocityUnits : List (String × ℝ) :=
  [("cm/s", 1 / 100), ("m/s", 1), ("m/min", 1 / minute), ("m/h", 1 / hour), ("m/hr", 1 / hour), ("in/s", inch),
   ("ft/s", foot), ("ft/min", foot / minute), ("gpm/ft^2", gallon / minute / foot ^ 2)]

/-- Cubic metres per second. -/
def flowUnits : List (String × ℝ) :=
  [("cm^3/s", (1 / 100) ^ 3), ("m^3/s", 1), ("ft^3/s", foot ^ 3), ("mL/s", litre / 1000), ("L/min", litre / minute),
   ("mL/min", litre / 1000 / minute), ("gpm", gallon / minute), ("mgd", 1000000 * gallon / day)]

/-- Square metres per second. -/
def diffusionUnits : List (String × ℝ) :=
  [("cm^2/s", (1 / 100) ^ 2), ("m^2/s", 1), ("in^2/s", inch ^ 2), ("ft^2/s", foot ^ 2)]

/-- Seconds. A month has 30 days by the comment in the code; a year is the Julian year. -/
def timeUnits : List (String × ℝ) :=
  [("Hours", hour), ("Days", day), ("Months", 30 * day), ("Years", 365.25 * day), ("hr", hour), ("day", day),
   ("month", 30 * day), ("year", 365.25 * day), ("hours", hour), ("days", day), ("hrs", hour), ("Minutes", minute)]

/-- Kilograms. -/
def weightUnits : List (String × ℝ) := [("kg", 1), ("g", 1 / 1000), ("lb", 0.45359237)]

/-- Milligrams per litre. -/
def massUnits : List (String × ℝ) :=
  [("mg", 1), ("ug", 1 / 1000), ("ng", 1 / 1000000), ("mg/L", 1), ("ug/L", 1 / 1000), ("ng/L", 1 / 1000000)]

/-- A table of factors converts every unit of the menu to `unit`, up to the relative error `tol`. -/
def Converts (tbl size : List (String × ℝ)) (unit tol : ℝ) (menu : List String) : Prop :=
  ∀ u ∈ menu, ∃ f s, tbl.lookup u = some f ∧ size.lookup u = some s ∧ 0 < s ∧ |f * unit - s| ≤ tol * s

end
end WTM.Spec
