import Mathlib.Data.Real.Basic

/-! Independent specification of the units a user may write and what they mean.
Nothing here refers to the model. -/
set_option autoImplicit false
namespace WTM.Spec

/-- Kinds of simple quantity. -/
inductive Kind
  | length | volume | time | area | weight | conc
  deriving DecidableEq

/-- The unit spellings documented as acceptable. -/
def accepted : Kind → List String
  | .length => ["m", "cm", "mm", "ft", "in", "um"]
  | .volume => ["m3", "cm3", "ml", "L", "mm3", "gal", "ft3", "in3", "cuf", "l"]
  | .time => ["days", "hours", "min", "sec", "m", "s", "seconds", "h", "d", "hr", "day", "hour"]
  | .area => ["m2", "cm2", "mm2", "in2", "ft2"]
  | .weight => ["kg", "g", "mg", "ug", "ng", "lbs", "lb", "lbm", "oz"]
  | .conc => ["meq", "mg", "ug", "ng", "mgN", "mgC", "eq", "g"]

/-- Exact size of one unit in the SI unit (m, m³, s, m², kg), by the legal definitions:
1 in = 0.0254 m, 1 ft = 12 in, 1 US gallon = 231 in³, 1 lb = 0.45359237 kg, 1 oz = lb/16.
Concentration is not listed here (it depends on molecular weight and valence), see `meqSize`. -/
def size : Kind → String → Option ℚ
  | .length, "m" => some 1
  | .length, "cm" => some (1/100)
  | .length, "mm" => some (1/1000)
  | .length, "um" => some (1/1000000)
  | .length, "in" => some (254/10000)
  | .length, "ft" => some (12*254/10000)
  | .area, "m2" => some 1
  | .area, "cm2" => some ((1/100)^2)
  | .area, "mm2" => some ((1/1000)^2)
  | .area, "in2" => some ((254/10000)^2)
  | .area, "ft2" => some ((12*254/10000)^2)
  | .volume, "m3" => some 1
  | .volume, "cm3" => some ((1/100)^3)
  | .volume, "ml" => some ((1/100)^3)
  | .volume, "L" => some ((1/10)^3)
  | .volume, "l" => some ((1/10)^3)
  | .volume, "mm3" => some ((1/1000)^3)
  | .volume, "in3" => some ((254/10000)^3)
  | .volume, "ft3" => some ((12*254/10000)^3)
  | .volume, "cuf" => some ((12*254/10000)^3)
  | .volume, "gal" => some (231*(254/10000)^3)
  | .time, "days" => some 86400
  | .time, "day" => some 86400
  | .time, "d" => some 86400
  | .time, "hours" => some 3600
  | .time, "hour" => some 3600
  | .time, "hr" => some 3600
  | .time, "h" => some 3600
  | .time, "min" => some 60
  | .time, "m" => some 60
  | .time, "sec" => some 1
  | .time, "s" => some 1
  | .time, "seconds" => some 1
  | .weight, "kg" => some 1
  | .weight, "g" => some (1/1000)
  | .weight, "mg" => some (1/1000000)
  | .weight, "ug" => some (1/1000000000)
  | .weight, "ng" => some (1/1000000000000)
  | .weight, "lb" => some (45359237/100000000)
  | .weight, "lbs" => some (45359237/100000000)
  | .weight, "lbm" => some (45359237/100000000)
  | .weight, "oz" => some (45359237/1600000000)
  | _, _ => none

/-- The units defined as exact decimal or sexagesimal multiples of the SI unit. -/
def metric : Kind → List String
  | .length => ["m", "cm", "mm", "um"]
  | .area => ["m2", "cm2", "mm2"]
  | .volume => ["m3", "cm3", "ml", "L", "l", "mm3"]
  | .time => ["days", "hours", "min", "sec", "m", "s", "seconds", "h", "d", "hr", "day", "hour"]
  | .weight => ["kg", "g", "mg", "ug", "ng"]
  | .conc => []

/-- Pairs of spellings of the same unit. -/
def aliases : Kind → List (String × String)
  | .volume => [("L", "l"), ("cm3", "ml"), ("ft3", "cuf")]
  | .time => [("days", "day"), ("day", "d"), ("hours", "hour"), ("hour", "hr"), ("hr", "h"),
              ("min", "m"), ("sec", "s"), ("s", "seconds")]
  | .weight => [("lb", "lbs"), ("lbs", "lbm")]
  | _ => []

/-- Milliequivalents in one unit of concentration: `m` mg of an ion of molecular weight `MW` and
valence `z` is `m z / MW` meq; mgN and mgC count the nitrogen (14.001) and carbon (12.011) mass, one
atom per ion. -/
noncomputable def meqSize (MW z : ℝ) : String → Option ℝ
  | "meq" => some 1
  | "eq" => some 1000
  | "mg" => some (z / MW)
  | "ug" => some (z / MW / 1000)
  | "ng" => some (z / MW / 1000000)
  | "g" => some (1000 * (z / MW))
  | "mgN" => some (z / 14.001)
  | "mgC" => some (z / 12.011)
  | _ => none

/-- `u` is a way of writing "numerator unit `n` per denominator unit `d`": the text `n/d` with both
parts accepted, or the abbreviation `gpm` for gallons per minute. -/
def Reads (num den : Kind) (u n d : String) : Prop :=
  n ∈ accepted num ∧ d ∈ accepted den ∧
    (u = n ++ "/" ++ d ∨ (u = "gpm" ∧ n = "gal" ∧ d = "min"))

end WTM.Spec
