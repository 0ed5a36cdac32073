import Verif.Model.GacColumn
import Verif.Model.GacUncert
import Verif.Model.Tools
import Verif.Model.GacInput

/-! Model of Shiny-GAC/GAC_Shiny_helper.py, the functions the carbon web application calls, with `python = False`, and of
the units and transfer coefficients `PSDM.__init__` takes (PSDM/psdm/PSDM.py:147-189, 329-350; the copy in
Shiny-GAC/psdm has the same lines).

Tables from R are rows of a time and a value. Concentrations are not divided by the reference concentration here, which is
a common factor. Reading of numbers from text (`np.float64`) is not modelled. -/
set_option autoImplicit false
namespace WTM
noncomputable section

/-- `np.arange(0, stop, step)` (numpy, external; without rounding). -/
def arange0 (stop step : ℝ) : List ℝ := (List.range ⌈stop / step⌉₊).map fun k : ℕ => k * step

/-- `np.max(infdat['time'].values)`, GAC_Shiny_helper.py:61. -/
def shMax (tab : List (ℝ × ℝ)) : ℝ := (tab.map (·.1)).foldl max ((tab.map (·.1)).headD 0)

/-- One column of `raw_data`, GAC_Shiny_helper.py:61-70: the table at whole times. -/
def shDaily (tab : List (ℝ × ℝ)) (M : ℝ) : List (ℝ × ℝ) := (arange0 (M + 1) 1).map fun t => (t, npInterp tab t)

/-- The influent at dimensionless time `t` in the equations, when the web application runs the model with the table `tab`:
`raw_data` in minutes (PSDM.py:1374), then as in `gacInfluent`. -/
def shInfluent (tab : List (ℝ × ℝ)) (tMult tconv t : ℝ) : Except PyErr ℝ :=
  let raw := (shDaily tab (shMax tab)).map fun r => (r.1 * tMult, r.2)
  gacInfluent raw ((raw.map (·.1)).getLastD 0) tMult tconv t

/-- `self.results[comp]` as a table, PSDM.py:1834, 1859: 2000 points. -/
def shResults (curve : ℝ → ℝ) (duration : ℝ) : List (ℝ × ℝ) := (linspace0 duration 1998).map fun t => (t, curve t)

/-- A column of `output_data` with its times, GAC_Shiny_helper.py:75, 91-94. `duration` is the largest time of `raw_data`
(PSDM.py:207-208). -/
def shOutput (curve : ℝ → ℝ) (M : ℝ) : List (ℝ × ℝ) :=
  (arange0 (M + 0.2) 0.25).map fun t => (t, npInterp (shResults curve ((arange0 (M + 1) 1).getLastD 0)) t)

/-- `run_PSDM` from the object on, GAC_Shiny_helper.py:89-100; `M` is the last influent time. An exception is returned as a
value. -/
def shRun (S : Sim) (massMul : ℝ) (o : GacObj) (M : ℝ) : Except PyErr (String → List (ℝ × ℝ)) :=
  (modelUncertainty S massMul true true (uTests none none none none none none none none none) o).1.map
    fun out c => shOutput (out.results c) M

/-- What `run_PSDM_fitter` returns, GAC_Shiny_helper.py:151-184: the curves or the exception, and the table shown as fitted.
`fit` is `run_all_smart` with the construction of the object before it (`.error` for an exception in the
construction), `run` is `model_uncertainty` with the fitted table. Ones and twos stand in all five rows. -/
def shFitter (built : Except PyErr Unit) (fit : Except PyErr KTab) (compounds : List String)
    (run : KTab → Except PyErr (String → List (ℝ × ℝ))) :
    Except PyErr (String → List (ℝ × ℝ)) × List (String × KCol) :=
  match built with
  | .error e => (.error e, [("0", ⟨2, 2, 2, 2, 2⟩)])
  | .ok _ =>
    match fit with
    | .error e => (.error e, [("0", ⟨1, 1, 1, 1, 1⟩)])
    | .ok kt =>
      match run kt with
      | .error e => (.error e, [("0", ⟨2, 2, 2, 2, 2⟩)])
      | .ok res => (.ok res, compounds.map fun c => (c, kt c))

/-! ### Transfer coefficients -/

/-- A cell of the properties sheet. -/
inductive PropCell where
  | num (x : ℝ)
  | text

/-- `mass_transfer_df.loc[row, comp] = x` for a row `kf`, `dp` or `ds`. -/
def MtTab.put (t : MtTab) (row c : String) (x : ℝ) : MtTab := fun c' =>
  if c' = c then
    if row = "kf" then { t c with kf := x } else if row = "dp" then { t c with dp := x } else { t c with ds := x }
  else t c'

/-- One row of the sheet, GAC_Shiny_helper.py:45-51: from the first text on nothing is written. -/
def shMtRow (row : String) (cell : String → PropCell) : List String → MtTab → MtTab
  | [], t => t
  | c :: rest, t =>
    match cell c with
    | .num x => shMtRow row cell rest (t.put row c x)
    | .text => t

/-- `mass_transfer_df`, GAC_Shiny_helper.py:42-51. Names of rows differ; `none` is a name that is not text. -/
def shMt (compounds : List String) (sheet : List (Option String × (String → PropCell))) : MtTab :=
  sheet.foldl (fun t r => match r.1 with
    | some n => if lowerStr n ∈ ["kf", "dp", "ds"] then shMtRow (lowerStr n) r.2 compounds t else t
    | none => t) fun _ => ⟨0, 0, 0⟩

/-! ### `PSDM.__init__` -/

/-- `t_mult`, PSDM.py:148-158: the rows `time` and `t_mult` of the column table and the keyword `time_type`. -/
def gacTMult (time : Option String) (tMult : Option ℝ) (kw : Option String) : Except PyErr ℝ :=
  match time with
  | none =>
    let u := kw.getD "days"
    .ok (if u = "days" then 24 * 60 else if u = "hours" then 60 else 1)
  | some _ =>
    match tMult with
    | some m => .ok m
    | none => .error .keyError

/-- `flow_mult`, PSDM.py:161-172; `lpg` is PSDM_functions.py:40. -/
def gacFlowMult (flow : Option String) (flowMult : Option ℝ) (kw : Option String) : Except PyErr ℝ :=
  match flow with
  | none =>
    let u := kw.getD "ml"
    .ok (if u = "gal" then 3.785411784 else if u = "ml" then 1e-3 else 1)
  | some _ =>
    match flowMult with
    | some m => .ok m
    | none => .error .keyError

/-- `mass_mul`, PSDM.py:175-189. -/
def gacMassMul (units : Option String) (massMul : Option ℝ) (kw : Option String) : Except PyErr ℝ :=
  match units with
  | none =>
    let u := kw.getD "ng"
    .ok (if u = "ug" then 1 else if u = "ng" then 1e-3 else if u = "mg" then 1e3 else 1)
  | some _ =>
    match massMul with
    | some m => .ok m
    | none => .error .keyError

/-- `self.mass_transfer` from the keyword, PSDM.py:330-347: compounds with their entries, in order; both a table and a
dictionary. A name other than `kf`, `dp`, `ds` makes a row that nothing reads. Entries are numbers and compounds those
of the column. -/
def gacMt (entries : List (String × List (String × ℝ))) : MtTab :=
  entries.foldl (fun t e => e.2.foldl (fun t v =>
    if lowerStr v.1 ∈ ["kf", "dp", "ds"] then t.put (lowerStr v.1) e.1 v.2 else t) t) fun _ => ⟨0, 0, 0⟩

end
end WTM
