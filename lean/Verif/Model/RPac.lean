import Mathlib.Algebra.Order.Round
import Mathlib.Analysis.SpecialFunctions.Log.Base
import Mathlib.Data.List.FinRange
import Verif.Model.Pac
import Verif.Model.RUnits

/-! Model of the server of the powdered carbon web application, `Shiny-PAC/PACapp.R`: the form, the call of PAC.py, the output in the
chosen units, C/C0, the dose and contact time calculators, upload and save.

Compounds are numbered: column names of an R data frame are distinct. Widgets are modelled by their values (the rounding that
`autonumericInput` and `sliderInput` do in the browser is not). reticulate passes numbers and strings unchanged and a vector of length
one as a number. Plots and notifications are not modelled. -/
set_option autoImplicit false
namespace WTM
noncomputable section

/-! ### Tables and menus -/

/-- `time_conv`, PACapp.R:80 with `min2min`, `min2hour` (36-45): units per minute. -/
def rPacTime : List (String × ℝ) := [("Minutes", 1), ("Hours", 1 / 60)]
/-- `mass_conv`, PACapp.R:88: µg/L. -/
def rPacMass : List (String × ℝ) :=
  [("meq", 1000), ("meq/L", 1000), ("mg", 1000), ("ug", 1), ("ng", 1e-3), ("mg/L", 1000), ("ug/L", 1), ("ng/L", 1e-3)]

/-- Menus, PACapp.R:327, 341, 355, 369, 377, 385, 434, 452-453, 472, 477-478. -/
def rPacLenMenu : List String := ["m", "cm", "ft", "in"]
def rPacVolMenu : List String := ["L", "mL", "gal"]
def rPacFlowMenu : List String := ["m3/s", "gpm", "MGD", "Lpm", "mL/min"]
def rPacConcMenu : List String := ["mg/L", "ug/L", "ng/L"]
def rPacTimeMenu : List String := ["Minutes", "Hours"]
def rPacTargetMenu : List String := ["ng", "ug"]

/-! ### The form and the run -/

/-- The inputs of the tab "Column Parameters", PACapp.R:297-436. -/
structure RPacForm where
  volselect : String := "Dimensions"
  format : String := "Square"
  temp : ℝ
  ld : ℝ
  ldunits : String
  height : ℝ
  heightunits : String
  vol : ℝ
  volunits : String
  flow : ℝ
  flowunits : String
  hrt : ℝ
  hrtunits : String
  crt : ℝ
  crtunits : String
  dosage : ℝ
  dosageunits : String
  den : ℝ
  denunits : String
  por : ℝ
  rad : ℝ
  radunits : String

/-- `contactor_session` and `pac_session`, PACapp.R:674-684 (712-722): every row is always there, `volselect` is not consulted. -/
def RPacForm.rows (f : RPacForm) : PacIn where
  density := some (some f.den)
  porosity := some (some f.por)
  radius := some (some f.rad, f.radunits)
  length := some (some f.ld, f.ldunits)
  format := some f.format
  aspect := none
  height := some (some f.height, f.heightunits)
  volume := some (some f.vol, f.volunits)
  flow := some (some f.flow, f.flowunits)
  hrt := some (some f.hrt, f.hrtunits)
  crt := some (some f.crt, f.crtunits)
  dosage := some (some f.dosage)

/-- `convert_array`, PAC.py:575: the units are not lowercased. -/
def pacFactors {m : ℕ} (comp : Fin m → PacComp) : Except PyErr (Fin m → ℝ) :=
  if ∀ i, (pacConc.lookup (comp i).units).isSome then .ok fun i => (pacConc.lookup (comp i).units).getD 0
  else .error .keyError

/-- `PAC_CFPSDM(...)`, PAC.py:440-579 (559: the duration is the larger of the two times). `dens` is the density of water by temperature
(434). The last case does not occur: the form holds numbers. -/
def rPacModel {m : ℕ} (dens : ℝ → ℝ) (f : RPacForm) (comp : Fin m → PacComp) : Except PyErr (Pac m) := do
  let b ← pacBuild f.rows
  let cv ← pacFactors comp
  match b.density, b.porosity, b.radius, b.hrt, b.crt, b.dosage with
  | some d, some p, some r, some h, some c, some x =>
    pure (Pac.update ⟨d, p, r, dens f.temp, h, x, max h c, 0, cv, comp⟩)
  | _, _, _, _, _, _ => .error .typeError

variable {m nd : ℕ}

/-- `R_run_PAC(contactor_session, pac_session, compounddat(), input$nrv)`, PACapp.R:686. -/
def rPacRun (ivp : Ivp nd m) (B : Fin (nd + 1) → Fin (nd + 1) → ℝ) (W : Fin (nd + 1) → ℝ) (dens : ℝ → ℝ) (f : RPacForm)
    (comp : Fin m → PacComp) : Except PyErr (List (ℝ × (Fin m → ℝ))) := do
  let p ← rPacModel dens f comp
  pure (p.runR ivp B W)

/-! ### Output -/

/-- `pivot_longer`, PACapp.R:687-689: row by row, within a row compound by compound. -/
def rPacLong (rows : List (ℝ × (Fin m → ℝ))) : List (ℝ × Fin m × ℝ) :=
  rows.flatMap fun r => (List.finRange m).map fun i => (r.1, i, r.2 i)

/-- `convert_array`, PACapp.R:692-697. Its length is the number of columns of the long table less one, which is two. `none` is NA: no
such compound, or no such unit. -/
def rPacDivisors (comp : Fin m → PacComp) : List (Option ℝ) :=
  (List.range (3 - 1)).map fun k =>
    if h : k < m then (rPacMass.lookup (comp ⟨k, h⟩).units).map fun f => f * (comp ⟨k, h⟩).C0 else none

/-- A row of `pac_obj`. -/
structure RPacOut (m : ℕ) where
  time : ℝ
  comp : Fin m
  conc : ℝ
  cc0 : Option ℝ

/-- `mapply('/', df$conc, convert_array)`, PACapp.R:698-699: the shorter vector is used again and again. -/
def rPacCc0 (comp : Fin m → PacComp) (long : List (ℝ × Fin m × ℝ)) : List (RPacOut m) :=
  long.mapIdx fun k r =>
    ⟨r.1, r.2.1, r.2.2, ((rPacDivisors comp).getD (k % (rPacDivisors comp).length) none).map fun d => r.2.2 / d⟩

/-- `pac_obj`, PACapp.R:701-703: ordered by compound, otherwise as before. -/
def rPacObj (comp : Fin m → PacComp) (rows : List (ℝ × (Fin m → ℝ))) : List (RPacOut m) :=
  (List.finRange m).flatMap fun i => (rPacCc0 comp (rPacLong rows)).filter fun r => r.comp = i

/-- `pac_obj_processed`, PACapp.R:772-795: time, compound, concentration. -/
def rPacShown (tu ou : String) (obj : List (RPacOut m)) : List (Option ℝ × Fin m × Option ℝ) :=
  obj.map fun r => ((rPacTime.lookup tu).map fun f => r.time * f, r.comp,
    if ou ≠ "C/C0" then (rPacMass.lookup ou).map fun f => r.conc / f else r.cc0)

/-! ### Calculators -/

open Classical in
/-- R `seq(from, to, by = by)` for `from ≤ to` (base R, `seq.default`): `n = (to - from)/by`, a single value when both are 0, otherwise
the multiples up to `as.integer(n + 1e-10)`, none beyond `to`. -/
def rSeqBy (a b d : ℝ) : List ℝ :=
  if d = 0 then [a] else (List.range (⌊(b - a) / d + 1e-10⌋₊ + 1)).map fun k : ℕ => min (a + k * d) b

/-- The doses of the calculator, PACapp.R:735-741. -/
def rPacDoses (a b : ℝ) (n : ℕ) : List ℝ := rSeqBy a b ((b - a) / (n - 1))

/-- `target_HRT`, PACapp.R:743. -/
def rPacHrts : List ℝ := [30, 60, 90, 120]

/-- `_run_multi_doseR(vector, target_HRT)`, PACapp.R:747 (PAC.py:953-999): a vector of one dose arrives as a number, over which Python
cannot iterate (960). For each contact time and compound, the rows by dose, in µg/L. -/
def rPacDoseStudy (ivp : Ivp nd m) (B : Fin (nd + 1) → Fin (nd + 1) → ℝ) (W : Fin (nd + 1) → ℝ) (p : Pac m) (ds : List ℝ) :
    Except PyErr (List (ℝ × (Fin m → List (ℝ × ℝ)))) :=
  match ds with
  | [_] => .error .typeError
  | _ => .ok (rPacHrts.map fun t => (t, p.analyze (p.multiDose ivp B W ds).2 t))

/-- `sub_data_processed`, PACapp.R:796-805. -/
def rPacDoseShown (ou : String) (rows : List (ℝ × ℝ)) : List (ℝ × Option ℝ) :=
  rows.map fun r => (r.1, (rPacMass.lookup ou).map fun f => r.2 / f)

/-- `np.arange(5, 150 + 1, 20)`, PAC.py:1063. -/
def rPacTrials : List (Option ℝ × ℝ) := (List.range 8).map fun k : ℕ => (none, 5 + 20 * (k : ℝ))

/-- `_R_HRT_calculator_for_dosage(input$target, target_units=input$targetunits, conc_units=input$concunits)`, PACapp.R:762. -/
def rPacHrt (ivp : Ivp nd m) (B : Fin (nd + 1) → Fin (nd + 1) → ℝ) (W : Fin (nd + 1) → ℝ) (p : Pac m) (target : ℝ) (tu cu : String) :
    Except PyErr (List ((Option ℝ × ℝ) × (Fin m → Option ℝ))) :=
  (p.hrtStudy ivp B W true target tu cu rPacTrials).2

/-! ### Upload and save -/

/-- The files kept in `temp_file`. -/
structure RPacFiles (α : Type) where
  contactor : α
  pac : α
  compounds : α

/-- A workbook: sheet by name. -/
abbrev RBook (α : Type) := String → Option α

/-- `read_in_files`, PACapp.R:115-139: a sheet that is not there is reported and its file left as it is. -/
def rPacRead {α : Type} (f : RPacFiles α) (b : RBook α) : RPacFiles α :=
  ⟨(b "Contactor").getD f.contactor, (b "PAC Characteristics").getD f.pac, (b "Compounds").getD f.compounds⟩

/-- Start of the application with `PAC_config.xlsx` (161), then uploads in order (522-525). -/
def rPacSession {α : Type} (start : RPacFiles α) (ups : List (RBook α)) : RPacFiles α := ups.foldl rPacRead start

/-- The input sheets of the saved workbook, PACapp.R:848-850: the files as loaded (541-542), the compounds as edited. -/
def rPacSave {α : Type} (f : RPacFiles α) (edited : α) : RBook α := fun s =>
  if s = "Contactor" then some f.contactor else if s = "PAC Characteristics" then some f.pac
  else if s = "Compounds" then some edited else none

/-- The tables `Contactor` and `PAC Characteristics`: row by name, value and units; and whether a row has a word for its value, as
`format` has. Such a column is read as text (`read.csv`, PACapp.R:541-542). -/
structure RPacTable where
  words : Bool
  row : String → ℝ × String

instance : CoeFun RPacTable fun _ => String → ℝ × String := ⟨RPacTable.row⟩

/-- R `format(x, digits = 4)` read back as a number: four significant digits (for `x > 0`). -/
def rFormat4 (x : ℝ) : ℝ :=
  round (x / (10 : ℝ) ^ (⌊Real.logb 10 x⌋ - 3)) * (10 : ℝ) ^ (⌊Real.logb 10 x⌋ - 3)

/-- `format(…, digits = 4)` of an entry, PACapp.R:637, 640: text stays as it is. -/
def rFormatIn (t : RPacTable) (name : String) : ℝ := if t.words then (t name).1 else rFormat4 (t name).1

/-- The form after loading, PACapp.R:573-653: the units of the file come first in the menus and so are selected. Format, length, height
and volume keep the values of the form (the observer for them is commented out, 544-561). -/
def rPacLoad (contactor pac : RPacTable) (f : RPacForm) : RPacForm :=
  { f with
    temp := (contactor "temperature").1
    flow := rFormatIn contactor "flow"
    flowunits := (contactor "flow").2
    hrt := (contactor "HRT").1
    hrtunits := (contactor "HRT").2
    crt := (contactor "CRT").1
    crtunits := (contactor "CRT").2
    dosage := (contactor "PAC Dosage").1
    dosageunits := (contactor "PAC Dosage").2
    den := (pac "density").1
    denunits := (pac "density").2
    por := (pac "porosity").1
    rad := rFormatIn pac "radius"
    radunits := (pac "radius").2 }

end
end WTM
