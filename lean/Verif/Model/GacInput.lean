import Verif.Model.IexLoad
import Verif.Model.Fouling

/-! Model of `process_input_file`, PSDM/psdm/PSDM_functions.py:48-266: the column sheet and the data sheet.

Reading the workbook is not modelled; all rows of the column sheet are there (a missing one raises `KeyError`),
except `time`. The pivoted data sheet has a column for every compound in both streams; repeated measurements, which
`pivot_table` averages, are given as one. -/
set_option autoImplicit false
namespace WTM
noncomputable section

/-! ### Column sheet -/

/-- A row with a number and a unit. -/
abbrev FileRow := ℝ × String

/-- The rows of the column sheet. -/
structure ColSheet where
  length : FileRow
  diameter : FileRow
  radius : FileRow
  particleDensity : FileRow
  apparentDensity : FileRow
  flowrate : FileRow
  weight : FileRow
  tortuosity : ℝ
  porosity : ℝ
  psdfr : ℝ
  units : String
  time : Option String

/-- The columns of `column_data`. -/
structure ColData where
  rad : ℝ
  flrt : ℝ
  epor : ℝ
  psdfr : ℝ
  rhop : ℝ
  rhof : ℝ
  L : ℝ
  wt : ℝ
  diam : ℝ
  tortu : ℝ
  units : String
  time : String
  massMul : ℝ
  tMult : ℝ
  flowMult : ℝ

/-- PSDM_functions.py:102-111. Divisions are written as factors. -/
def fileLength : List (String × ℝ) := [("cm", 1), ("mm", 1 / 10), ("in", 2.54), ("m", 100), ("ft", 2.54 * 12)]
/-- PSDM_functions.py:118-121. -/
def fileDens : List (String × ℝ) := [("g/ml", 1), ("g/cm3", 1), ("lb/ft3", 1 / 62.427973725314)]
/-- PSDM_functions.py:125-136. -/
def fileFlow : List (String × ℝ) :=
  [("ml/min", 1), ("cm3/min", 1), ("lpm", 1e3), ("l/min", 1e3), ("gpm", 3.785411784 * 1e3),
   ("gal/min", 3.785411784 * 1e3), ("mgd", 3.785411784 * 1e3 * 1e6 / (24 * 60)), ("m3/min", 1e6),
   ("ft3/min", (2.54 * 12) ^ 3)]
/-- PSDM_functions.py:140-149. -/
def fileMass : List (String × ℝ) :=
  [("g", 1), ("gm", 1), ("lb", 453.59237), ("kg", 1e3), ("ton", 2e3 * 453.59237), ("mton", 1e3 * 1e3),
   ("metricton", 1e3 * 1e3)]

/-- One quantity: the unit is lowered and looked up; without a match the row of `column_data` keeps the 0 it
was created with (85-90). -/
def fileVal (tab : List (String × ℝ)) (r : FileRow) : ℝ :=
  match tab.lookup (lowerStr r.2) with
  | some f => r.1 * f
  | none => 0

/-- The `units` row, PSDM_functions.py:157-163; without a match it stays `'ng'` (88). -/
def fileConc (u : String) : String :=
  let u := lowerStr u
  if u = "ug" ∨ u = "ng" then u
  else if u = "ppb" ∨ u = "ug/l" then "ug"
  else if u = "ppt" ∨ u = "ng/l" then "ng"
  else "ng"

/-- `mass_mul`, PSDM_functions.py:165-168; created as 1 (89). -/
def fileMassMul (u : String) : ℝ := if u = "ug" then 1 else if u = "ng" then 1e-3 else 1

/-- `time` and `t_mult`, PSDM_functions.py:181-196; created as `'days'` and 1 (88-89). -/
def fileTime (t : Option String) : String × ℝ :=
  match t with
  | none => ("days", 24 * 60)
  | some u =>
    if u = "days" ∨ u = "day" then ("days", 24 * 60)
    else if u = "hour" ∨ u = "hr" ∨ u = "hrs" then ("hour", 60)
    else if u = "min" then ("min", 1)
    else ("days", 1)

/-- The column part, PSDM_functions.py:85-168, 181-199. It has no branch that raises. -/
def fileColumn (s : ColSheet) : Except PyErr ColData := .ok {
  rad := fileVal fileLength s.radius
  flrt := fileVal fileFlow s.flowrate
  epor := s.porosity
  psdfr := s.psdfr
  rhop := fileVal fileDens s.particleDensity
  rhof := fileVal fileDens s.apparentDensity
  L := fileVal fileLength s.length
  wt := fileVal fileMass s.weight
  diam := fileVal fileLength s.diameter
  tortu := s.tortuosity
  units := fileConc s.units
  time := (fileTime s.time).1
  massMul := fileMassMul (fileConc s.units)
  tMult := (fileTime s.time).2
  flowMult := 1e-3 }

/-! ### Data sheet -/

/-- Measurements of one stream by compound and time. -/
abbrev Stream := String → ℝ → Option ℝ

/-- The pivoted sheet: times in increasing order, and the two streams. -/
structure RawSheet where
  comps : List String
  idx : List ℝ
  infl : Stream
  effl : Stream

/-- `a[a < rept_lim] = 0.`, PSDM_functions.py:207. -/
def Stream.limit (v : Stream) (lim : ℝ) : Stream := fun c t => (v c t).map fun x => if x < lim then 0 else x

open Classical in
/-- `rawdata_df[stream].dropna().index`, PSDM_functions.py:210-211: times with all compounds. -/
def Stream.full (comps : List String) (idx : List ℝ) (v : Stream) : List ℝ :=
  idx.filter fun t => ∀ c ∈ comps, (v c t).isSome

/-- `infl_dict[comp]`, PSDM_functions.py:215-221 (two times at least; fewer are not modelled). -/
def Stream.line (comps : List String) (idx : List ℝ) (v : Stream) (c : String) : ℝ → ℝ :=
  interpExtrap ((v.full comps idx).map fun s => (s, (v c s).getD 0))

open Classical in
/-- The new row at time zero, PSDM_functions.py:229-231: `last` is the last complete time of the influent. NaN
times zero is NaN. -/
def Stream.start (idx : List ℝ) (last : ℝ) (v : Stream) : Stream := fun c t =>
  if t = 0 ∧ (0 : ℝ) ∉ idx then (v c last).map (· * 0) else v c t

open Classical in
/-- Filling, PSDM_functions.py:224-249: zero counts as complete whether or not it is (224-227), times before zero
are left out (237-238). -/
def Stream.fill (comps : List String) (idx : List ℝ) (last : ℝ) (v : Stream) : Stream := fun c t =>
  if t ∉ v.full comps idx ∧ t ≠ 0 ∧ 0 ≤ t ∧ t ∈ idx then some (v.line comps idx c t)
  else v.start idx last c t

open Classical in
/-- Index of the result, PSDM_functions.py:228-231, 252. -/
def rawIndex (idx : List ℝ) : List ℝ :=
  if (0 : ℝ) ∈ idx then idx else idx.filter (· < 0) ++ 0 :: idx.filter (0 < ·)

/-- Zeros of the influent, PSDM_functions.py:253: a chained assignment; `thru` says whether it reaches the
table. -/
def Stream.noZero (thru : Bool) (v : Stream) : Stream := fun c t =>
  (v c t).map fun x => if thru ∧ x = 0 then 0.001 else x

/-- The data part, PSDM_functions.py:201-266. `infl_idx[-1]` (231) is the last complete time, zero included
(if all complete times are negative and zero is not in the sheet the code raises `KeyError`; not modelled). -/
def fileData (thru : Bool) (lim : ℝ) (s : RawSheet) : List ℝ × Stream × Stream :=
  let vi := s.infl.limit lim
  let ve := s.effl.limit lim
  let last := max 0 ((vi.full s.comps s.idx).getLastD 0)
  (rawIndex s.idx, (vi.fill s.comps s.idx last).noZero thru, ve.fill s.comps s.idx last)

end
end WTM
