import Mathlib.Analysis.SpecialFunctions.Pow.Real
import Mathlib.Analysis.SpecialFunctions.Trigonometric.Basic
import Verif.Model.Py
import Verif.Model.IexLoad

/-! PSDM_extra.py: mesh sizes, unit conversion, large column, rapid small-scale column.
A NaN is `none`. The one place where numpy makes a number out of NaN (`nan ** 0`, a particle diameter that was not
given and `power_x = 2`) is `none` here. Lists of other lengths than two are not modelled. -/
set_option autoImplicit false
namespace WTM
noncomputable section

/-- `sizes`, PSDM_extra.py:14-18, in mm. -/
def meshSizes : List (String × ℝ) :=
  [("4", 4.76), ("5", 4.0), ("6", 3.36), ("7", 2.83), ("8", 2.38), ("10", 2.0), ("12", 1.68), ("14", 1.41),
   ("16", 1.19), ("18", 1.0), ("20", 0.841), ("25", 0.707), ("30", 0.595), ("35", 0.5), ("40", 0.420),
   ("45", 0.354), ("50", 0.297), ("60", 0.25), ("70", 0.21), ("80", 0.177), ("100", 0.149), ("120", 0.125),
   ("140", 0.105), ("170", 0.088), ("200", 0.074), ("230", 0.063), ("270", 0.053), ("325", 0.044), ("400", 0.037)]

/-- The two numbers of a mesh range, PSDM_extra.py:12; raises unless there are two parts. -/
def meshParts (mesh : String) : Except PyErr (String × String) :=
  match mesh.toList.splitOn 'x' with
  | [a, b] => .ok (String.ofList a, String.ofList b)
  | _ => .error .valueError

/-- `calc_mesh_diameter`, PSDM_extra.py:11-35. An unknown size counts as zero. -/
def meshDiameter (mesh : String) : Except PyErr ℝ :=
  match meshParts mesh with
  | .error e => .error e
  | .ok (a, b) => .ok (((meshSizes.lookup a).getD 0 + (meshSizes.lookup b).getD 0) / 2)

/-- Centimetres per unit, PSDM_extra.py:41-52. -/
def cmPer : List (String × ℝ) :=
  [("cm", 1), ("m", 100), ("mm", 1 / 10), ("in", 2.54), ("ft", 12 * 2.54), ("yard", 3 * 12 * 2.54),
   ("yd", 3 * 12 * 2.54)]

/-- cm³/min per unit, PSDM_extra.py:60-77. -/
def cm3minPer : List (String × ℝ) :=
  [("cm3/min", 1), ("ml/min", 1), ("m3/min", 100 ^ 3), ("mm3/min", 1 / 10 ^ 3), ("in3/min", 2.54 ^ 3),
   ("ft3/min", (12 * 2.54) ^ 3), ("mgd", 3785.411784 * 1e6 / 1440), ("lpm", 1000), ("l/min", 1000),
   ("gal/min", 3785.411784), ("gpm", 3785.411784), ("m3/day", 1e6 / 1440), ("m3pd", 1e6 / 1440)]

/-- Grams per unit, PSDM_extra.py:86-95. -/
def gramPer : List (String × ℝ) :=
  [("gm", 1), ("g", 1), ("grams", 1), ("kg", 1e3), ("lb", 453.59237), ("pounds", 453.59237),
   ("ton", 2000 * 453.59237), ("tons", 2000 * 453.59237), ("mton", 1000 * 1e3), ("metric tons", 1000 * 1e3)]

/-- Days per unit, PSDM_extra.py:104-111. -/
def dayPer : List (String × ℝ) :=
  [("min", 1 / (24 * 60)), ("sec", 1 / (24 * 60 * 60)), ("s", 1 / (24 * 60 * 60)), ("day", 1), ("days", 1), ("d", 1),
   ("hr", 1 / 24), ("hours", 1 / 24), ("h", 1 / 24)]

/-- m/h per unit, PSDM_extra.py:155-161. -/
def loadPer : List (String × ℝ) :=
  [("m/h", 1), ("m/hr", 1), ("gpm/ft2", 2.44475), ("cm/s", 1 / 24 / (1 / (24 * 60 * 60)) / 100)]

/-- g/cm³ per unit, PSDM_extra.py:204-207. -/
def densPer : List (String × ℝ) :=
  [("gm/ml", 1), ("g/ml", 1), ("gm/cm3", 1), ("g/cm3", 1), ("lb/ft3", 1 / 62.4279605761)]

/-- `_length_convert2cm` 38-54, `_flrt_convert2cm3min` 57-79, `_mass_convert2g` 82-97, `_time_convert2day` 100-113:
NaN for an unknown unit. -/
def convBy (t : List (String × ℝ)) (value : ℝ) (unit : String) : Option ℝ :=
  (t.lookup (lowerStr unit)).map fun f => value * f

/-- A number, or `[value, unit]`. -/
inductive Quant where
  | num (x : ℝ)
  | units (value : ℝ) (unit : String)

/-- `type(q) == list and len(q) == 2`, e.g. PSDM_extra.py:127-132. -/
def Quant.by (t : List (String × ℝ)) : Quant → Option ℝ
  | .num x => some x
  | .units v u => convBy t v u

/-- `lc_obj`, PSDM_extra.py:121-123. -/
structure LargeCol where
  flrt : Option ℝ
  L : Option ℝ
  diam : Option ℝ
  partDiam : Option ℝ
  time : Option ℝ
  mass : Option ℝ
  ebct : Option ℝ
  density : Option ℝ
  loading : Option ℝ

/-- Keyword arguments of `build_large_scale_column`, PSDM_extra.py:116-119, with `column_info=None`. -/
structure LargeArgs where
  L : Option Quant := none
  diam : Option Quant := none
  flrt : Option Quant := none
  loading : Option Quant := none
  density : Option Quant := none
  mass : Option Quant := none
  time : Option Quant := none
  partDiam : Option Quant := none
  mesh : Option String := none

/-- Flow from a loading rate, PSDM_extra.py:168-171. -/
def flowOf (loading diam : Option ℝ) : Option ℝ :=
  loading.bind fun v => diam.map fun d => v * 100 * (1 / (24 * 60) / (1 / 24)) * Real.pi / 4 * d ^ 2

/-- PSDM_extra.py:173-181. A list is converted to cm; a mesh range is used only if it has two parts. -/
def largePart (a : LargeArgs) : Option ℝ :=
  match a.partDiam with
  | some q => q.by cmPer
  | none => a.mesh.bind fun m => match meshDiameter m with
    | .ok d => some d
    | .error _ => none

/-- `build_large_scale_column`, PSDM_extra.py:116-227. -/
def buildLarge (a : LargeArgs) : LargeCol :=
  let L := a.L.bind (Quant.by cmPer)
  let diam := a.diam.bind (Quant.by cmPer)
  let given := match a.flrt with
    | some _ => none
    | none => a.loading.bind (Quant.by loadPer)
  let flrt := match a.flrt with
    | some q => q.by cm3minPer
    | none => flowOf given diam
  { flrt, L, diam
    partDiam := largePart a
    time := a.time.bind (Quant.by dayPer)
    mass := a.mass.bind (Quant.by gramPer)
    ebct := L.bind fun l => diam.bind fun d => flrt.map fun f => l * Real.pi / 4 * d ^ 2 / f
    density := a.density.bind (Quant.by densPer)
    loading := match given with
      | some v => some v
      | none => flrt.bind fun f => diam.map fun d =>
        f / (Real.pi / 4 * d ^ 2) / 100 / (1 / (24 * 60) / (1 / 24)) }

/-- `sc_obj`, PSDM_extra.py:232-240. -/
structure SmallCol where
  diam : Option ℝ := none
  length : Option ℝ := none
  partDiam : Option ℝ := none
  ebct : Option ℝ := none
  duration : Option ℝ := none
  loading : Option ℝ := none
  Q : Option ℝ := none
  mass : Option ℝ := none
  water : Option ℝ := none

/-- The particle diameter, PSDM_extra.py:249-263: `none` outside is "insufficient information". -/
def smallPart (part : Option Quant) (mesh : Option String) : Except PyErr (Option (Option ℝ)) :=
  match part, mesh with
  | none, some m => match meshDiameter m with
    | .error e => .error e
    | .ok d => .ok (some (some d))
  | some (.units v u), _ => .ok (some ((convBy cmPer v u).map fun c => c * (1 * (1 / 10))))
  | some (.num x), _ => .ok (some (some x))
  | none, none => .ok none

/-- `NaN` through a product of two. -/
def mulN (a b : Option ℝ) : Option ℝ := a.bind fun x => b.map fun y => x * y

/-- The rest, PSDM_extra.py:265-292. -/
def smallFrom (lc : LargeCol) (diam part : Option ℝ) (x : ℝ) : SmallCol :=
  let ratio := part.bind fun d => lc.partDiam.map fun D => (d ^ (2 - x), D ^ (2 - x))
  let ebct := lc.ebct.bind fun e => ratio.map fun r => e * r.1 / r.2
  let duration := lc.time.bind fun t => ratio.map fun r => t * r.1 / r.2
  let loading := lc.loading.bind fun v => lc.partDiam.bind fun D => part.map fun d => v * D / d
  let length := ebct.bind fun e => loading.map fun v => e * v * (1 / (24 * 60)) / (1 / 24) * 100
  let vol := diam.bind fun d => length.map fun l => d ^ 2 * Real.pi / 4 * l
  let Q := vol.bind fun v => ebct.map fun e => v / e
  { diam, length, partDiam := part, ebct, duration, loading, Q
    mass := mulN vol lc.density
    water := duration.bind fun t => Q.map fun q => t * q / (1 / (24 * 60)) / 1000 }

/-- `calc_RSSCT_specs`, PSDM_extra.py:230-294. -/
def calcRSSCT (lc : LargeCol) (columnDiam part : Option Quant) (mesh : Option String) (x : ℝ) :
    Except PyErr SmallCol :=
  let diam := columnDiam.bind (Quant.by cmPer)
  match smallPart part mesh with
  | .error e => .error e
  | .ok none => .ok { diam }
  | .ok (some p) => .ok (smallFrom lc diam p x)

end
end WTM
