import Mathlib.Analysis.SpecialFunctions.Pow.Real
import Mathlib.Analysis.SpecialFunctions.Trigonometric.Basic
import Verif.Model.Py
import Verif.Model.GacColumn

/-! PSDM_tools.py: `specific_throughput`, the bed rotation of `predict_full_scale`,
`calculate_replacement_interval`. Plots, prints and files are left out. The writes
`replacement_interval.loc[comp]['note'] = …` are taken to reach the table. -/
set_option autoImplicit false
namespace WTM
noncomputable section

/-! ### `specific_throughput` -/

/-- The entries of `column_specs` it changes. -/
structure Bed where
  L : ℝ
  diam : ℝ
  flrt : ℝ
  wt : ℝ

/-- PSDM_tools.py:102-103. -/
def Bed.ebct (b : Bed) : ℝ := b.L * Real.pi * b.diam ^ 2 / (4 * b.flrt)

/-- Sizes for one requested contact time, PSDM_tools.py:124-137. -/
def sizeFor (orig : Bed) (e : ℝ) : Bed :=
  open Classical in
  if e ≤ orig.ebct then { orig with flrt := orig.ebct / e * orig.flrt }
  else
    { flrt := orig.flrt
      diam := orig.diam * (orig.ebct / e) ^ (1 / 3 : ℝ)
      L := orig.L * (orig.ebct / e) ^ (1 / 3 : ℝ)
      wt := orig.wt * (orig.ebct / e) }

/-- `spec_throughput`, PSDM_tools.py:152-153; `min_per_day` is 1440 (PSDM.py). -/
def specThroughput (b : Bed) (days : ℝ) : ℝ := b.flrt / 1e6 * 1440 * days / (b.wt / 1e3)

/-- The loop over compounds and contact times, PSDM_tools.py:120-157: the caller's `column_specs` and the
values. `life b c` is the last day of the simulated curve of compound `c` below the threshold (141-151), or an
exception. -/
def throughputRow (life : Bed → String → Except PyErr ℝ) (orig : Bed) (c : String) :
    List ℝ → Bed → Except PyErr (List ℝ) × Bed
  | [], b => (.ok [], b)
  | e :: es, _ =>
    match life (sizeFor orig e) c with
    | .error x => (.error x, sizeFor orig e)
    | .ok d =>
      match throughputRow life orig c es (sizeFor orig e) with
      | (.error x, b) => (.error x, b)
      | (.ok l, b) => (.ok (specThroughput (sizeFor orig e) d :: l), b)

def throughputAll (life : Bed → String → Except PyErr ℝ) (orig : Bed) (es : List ℝ) :
    List String → Bed → Except PyErr (List (String × List ℝ)) × Bed
  | [], b => (.ok [], b)
  | c :: cs, b =>
    match throughputRow life orig c es b with
    | (.error x, b) => (.error x, b)
    | (.ok l, b) =>
      match throughputAll life orig es cs b with
      | (.error x, b) => (.error x, b)
      | (.ok r, b) => (.ok ((c, l) :: r), b)

/-- `specific_throughput`, PSDM_tools.py:51-159. -/
def specificThroughput (life : Bed → String → Except PyErr ℝ) (specs : Bed) (es : List ℝ) (cs : List String) :
    Except PyErr (List (String × List ℝ)) × Bed := throughputAll life specs es cs specs

/-! ### `predict_full_scale` -/

/-- `weights`, PSDM_tools.py:258-266. -/
def bedWeights (total per : ℕ) : List ℝ :=
  if total % per = 0 then List.replicate (total / per) ((per : ℝ) / total)
  else ((total % per : ℕ) : ℝ) / total :: List.replicate (total / per) ((per : ℝ) / total)

/-- One bed of the loop of PSDM_tools.py:282-288: `bed_info`, `count`, `bed_c`. -/
def bedStep (per : ℕ) (s : List ℕ × ℕ × ℕ) : List ℕ × ℕ × ℕ :=
  let info := if s.2.1 ≤ per then s.1 ++ [s.2.2] else s.1
  let count := s.2.1 + 1
  if count = per then (info, 0, s.2.2 + 1) else (info, count, s.2.2)

/-- `bed_info`, PSDM_tools.py:279-288. -/
def bedInfo (total per : ℕ) : List ℕ := ((bedStep per)^[total] ([], 0, 1)).1

/-- `max(bed_info)`. -/
def bedGroups (total per : ℕ) : ℕ := (bedInfo total per).foldl max 0

/-- `data_df` and `summed`, PSDM_tools.py:241, 252, 271: negative concentrations are zero. The comparison with
the still empty table at 235 does nothing. -/
def summedDaily (curves : List (ℕ → ℝ)) (day : ℕ) : ℝ := (curves.map fun f => max 0 (f day)).sum

/-- `summed` extended, PSDM_tools.py:290-292. -/
def summedExt (maxDays : ℕ) (curves : List (ℕ → ℝ)) (day : ℕ) : ℝ :=
  interpExtrap ((List.range (maxDays + 1)).map fun k : ℕ => ((k : ℝ), summedDaily curves k)) day

/-- Number of days in the slice of group `j`, PSDM_tools.py:300: the days are `0 .. n-1`. -/
def sliceLen (n i j : ℕ) : ℕ := min ((j + 1) * i) n - min (j * i) n

/-- The blended cycle, PSDM_tools.py:298-300. A slice of one day is broadcast, one of another wrong length raises. -/
def blend (w : List ℝ) (groups n : ℕ) (f : ℕ → ℝ) (i : ℕ) : Except PyErr (List ℝ) :=
  if w.length < groups then .error .indexError
  else if (List.range groups).all fun j => sliceLen n i j = i ∨ sliceLen n i j = 1 then
    .ok ((List.range i).map fun t =>
      ((List.range groups).map fun j => w.getD j 0 * f (j * i + if sliceLen n i j = i then t else 0)).sum)
  else .error .valueError

/-- The search, PSDM_tools.py:294-308. -/
def rotLoop (w : List ℝ) (groups n maxDays : ℕ) (f : ℕ → ℝ) (target : ℝ) :
    List ℕ → ℕ × List ℝ → ℕ × List ℝ
  | [], best => best
  | i :: rest, best =>
    match blend w groups n f i with
    | .error _ => (maxDays, List.replicate maxDays 0)
    | .ok tmp =>
      open Classical in
      if ∀ x ∈ tmp, x ≤ target then rotLoop w groups n maxDays f target rest (i, tmp) else best

/-- `predict_full_scale` from the daily curves on, PSDM_tools.py:258-308. -/
def predictFullScale (total per maxDays : ℕ) (curves : List (ℕ → ℝ)) (target : ℝ) : ℕ × List ℝ :=
  rotLoop (bedWeights total per) (bedGroups total per) (5 * maxDays) maxDays (summedExt maxDays curves) target
    (List.range' 1 (maxDays - 1)) (1, [0])

/-! ### `calculate_replacement_interval` -/

/-- `np.interp(t, x, y)`: linear between rows, constant outside. -/
def npInterp : List (ℝ × ℝ) → ℝ → ℝ
  | [], _ => 0
  | [r], _ => r.2
  | r0 :: r1 :: rest, t =>
    open Classical in
    if t ≤ r0.1 then r0.2
    else if t ≤ r1.1 then r0.2 + (r1.2 - r0.2) / (r1.1 - r0.1) * (t - r0.1)
    else npInterp (r1 :: rest) t

/-- A table of concentrations by time, with column names. -/
structure EffTable where
  cols : List String
  rows : List (ℝ × (String → ℝ))

/-- `mcls`, PSDM_tools.py:779-784. -/
def mcls : List (String × ℝ) := [("PFOA", 4), ("PFOS", 4), ("PFHxS", 10), ("PFNA", 10), ("GenX", 10), ("HI", 1)]

/-- Number of entries of `new_idx`, PSDM_tools.py:794. -/
def EffTable.days (f : EffTable) : ℕ := ⌈(f.rows.getLastD (-1, fun _ => 0)).1 + 1⌉₊

/-- `data_new[comp][day]`, PSDM_tools.py:800. -/
def EffTable.daily (f : EffTable) (c : String) (day : ℕ) : ℝ := npInterp (f.rows.map fun r => (r.1, r.2 c)) day

/-- `data_new['HI'][day]`, PSDM_tools.py:809-816. The contribution of PFBS goes to its own column. -/
def EffTable.hi (f : EffTable) (day : ℕ) : ℝ :=
  ((["PFHxS", "PFNA", "GenX"].filter fun c => c ∈ f.cols).map fun c => f.daily c day / 10).sum

/-- The curve compared with the limit of a row. -/
def EffTable.curve (f : EffTable) (c : String) : ℕ → ℝ := if c = "HI" then f.hi else f.daily c

/-- Kinds of note. -/
inductive RNote where
  | below | absent | days
deriving DecidableEq

open Classical in
/-- The note of a row before the search, PSDM_tools.py:803-821. -/
def EffTable.note (f : EffTable) (c : String) (mcl : ℝ) : Option RNote :=
  if c = "HI" ∧ ∀ d < f.days, f.hi d < 1 then some .below
  else if c ∈ ["PFHxS", "PFNA", "GenX"] ∧ c ∉ f.cols then some .absent
  else if c ∈ f.cols ∧ ∀ r ∈ f.rows, r.2 c < mcl then some .below
  else none

structure RRow where
  predicted : Option ℤ
  lower : Option ℤ
  upper : Option ℤ
  note : Option RNote

open Classical in
/-- Day before the first one over the limit, PSDM_tools.py:825-831. -/
def firstOver (curve : ℕ → ℝ) (mcl : ℝ) (n : ℕ) : Option ℤ :=
  ((List.range n).find? fun d => mcl < curve d).map fun d : ℕ => (d : ℤ) - 1

/-- `predicted` of one row, PSDM_tools.py:823-831; a compound without a column raises. -/
def EffTable.predicted (f : EffTable) (c : String) (mcl : ℝ) : Except PyErr (Option ℤ) :=
  match f.note c mcl with
  | some _ => .ok none
  | none => if c ≠ "HI" ∧ c ∉ f.cols then .error .keyError else .ok (firstOver (f.curve c) mcl f.days)

/-- The table before the uncertainty columns, PSDM_tools.py:788-831. `loc['PFBS']` at 818 raises, as PFBS is not a
row. A table that ends before day 0 raises; which exception is not tracked. -/
def riBase (f : EffTable) : Except PyErr (List (String × RRow)) :=
  if f.rows = [] then .error .indexError
  else if "PFBS" ∉ f.cols then .error .keyError
  else if f.days = 0 then .error .valueError
  else mcls.mapM fun (c, mcl) => (f.predicted c mcl).map fun p => (c, ⟨p, none, none, f.note c mcl⟩)

/-- `inter_results['predicted']` by row name. -/
def predOf (t : List (String × RRow)) (c : String) : Option ℤ := (t.lookup c).bind RRow.predicted

/-- `calculate_replacement_interval`, PSDM_tools.py:761-858; `unc` are the `lower` and `upper` tables. -/
def replacementInterval (f : EffTable) (unc : Option (EffTable × EffTable)) : Except PyErr (List (String × RRow)) := do
  let base ← riBase f
  match unc with
  | none => pure (base.map fun (c, r) => (c, { r with note := some (r.note.getD .days) }))
  | some (lo, up) => do
    let rl ← riBase lo
    let ru ← riBase up
    pure (base.map fun (c, r) =>
      (c, { r with upper := predOf rl c, lower := predOf ru c, note := some (r.note.getD .days) }))

end
end WTM
