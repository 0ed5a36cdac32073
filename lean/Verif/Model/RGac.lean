import Mathlib.Data.List.FinRange
import Verif.Model.RPac
import Verif.Model.RWeb
import Verif.Model.GacState

/-! Model of the server of the carbon column web application, `Shiny-GAC/GACapp.R`: measured points on the plot, the sheet of
measurements and the sheet of the column in a saved workbook and after its upload, the check before a run, the run, the fit and the
button "Use", and what is on the screen afterwards. The units of the form are modelled in RWeb.lean.

Cells of tables are numbers or NA (`none`). Numbers keep their value on the way through a workbook or a csv file. A table editor shows
the file it was given when the session was opened and returns what the user made of it. -/
set_option autoImplicit false
namespace WTM
noncomputable section

/-! ### Measured points -/

/-- A table of measurements: the column `time` and one column for each compound. -/
structure RFrame where
  n : ℕ
  m : ℕ
  time : Fin n → ℝ
  name : Fin m → String
  val : Fin m → Fin n → Option ℝ

/-- A row of a long table: time, name, concentration. -/
abbrev RLong := ℝ × String × Option ℝ

/-- `gather` next to the column of times, which `cbind` repeats: compound by compound, GACapp.R:269-274, 319-322. -/
def RFrame.gather (f : RFrame) : List RLong :=
  (List.finRange f.m).flatMap fun j => (List.finRange f.n).map fun i => (f.time i, f.name j, f.val j i)

/-- `pivot_longer(!time, …)`: row by row, GACapp.R:335-336, 1324, 1328. -/
def RFrame.longer (f : RFrame) : List RLong :=
  (List.finRange f.n).flatMap fun i => (List.finRange f.m).map fun j => (f.time i, f.name j, f.val j i)

/-- `paste(…, "effluent", sep = "_")`, GACapp.R:268, 292. -/
def RFrame.suffix (f : RFrame) (s : String) : RFrame := { f with name := fun j => f.name j ++ "_" ++ s }

/-- `c_points_cc0(concdata, effluent)` for at least two rows, GACapp.R:425-433 (the same as `cc0_conv_ngl`, 403-410): column `k` of the
measurements over the first entry of column `k` of the influent, under the names of the influent. With another number of columns
`mapply` starts over with the shorter side and what comes out does not fit the plot (`none`). -/
def rPointsCc0 (inf eff : RFrame) (h : 0 < inf.n) : Option RFrame :=
  if e : eff.m = inf.m then
    some ⟨eff.n, inf.m, eff.time, inf.name, fun j i =>
      (eff.val (j.cast e.symm) i).bind fun x => (inf.val j ⟨0, h⟩).map fun c => x / c⟩
  else none

/-- `dat$conc <- values`, an error unless there are as many values as rows. -/
def rSetConc (rows : List RLong) (vals : List (Option ℝ)) : Option (List RLong) :=
  if rows.length = vals.length then some (List.zipWith (fun r v => (r.1, r.2.1, v)) rows vals) else none

/-- Points of the effluent for "c/c0", GACapp.R:1198-1200, 1214-1216, 1251, 1278-1288: the rows of `effluent_data_processor` (265-280)
with the concentrations of `process_output(c_points_cc0(…))`. A table of one row gives a row of `NA`, which is not drawn. Times before
their conversion (`rAxisGac`). -/
def rEffCc0 (inf eff : RFrame) (h : 0 < inf.n) : Option (List RLong) :=
  if 1 < eff.n then (rPointsCc0 inf eff h).bind fun q => rSetConc (eff.suffix "effluent").gather (q.longer.map (·.2.2))
  else some []

/-- Points of the influent for "c/c0", GACapp.R:1202-1205, 1218-1220, 1252, 1290-1300. -/
def rInfCc0 (inf : RFrame) (h : 0 < inf.n) : Option (List RLong) :=
  if 1 < inf.n then (rPointsCc0 inf inf h).bind fun q => rSetConc (inf.suffix "influent").gather (q.longer.map (·.2.2))
  else some []

/-- The computed curves for "c/c0", GACapp.R:1137-1138, 1210-1212, 1250, 1266-1270. -/
def rCurveCc0 (inf out : RFrame) (h : 0 < inf.n) : Option (List RLong) :=
  if 1 < out.n then (rPointsCc0 inf out h).bind fun q => rSetConc out.longer (q.longer.map (·.2.2)) else some []

/-- Points of the effluent in units of concentration, GACapp.R:1198-1200, 1255: `c` is the factor of the units (`rConcGac`). -/
def rEffConc (c : ℝ) (eff : RFrame) : List RLong :=
  if 1 < eff.n then (eff.suffix "effluent").gather.map fun r => (r.1, r.2.1, r.2.2.map (· * c)) else []

/-! ### The sheet `data` -/

/-- A row of the sheet `data`: type, time, concentration, compound. -/
structure RDataRow where
  type : String
  time : ℝ
  conc : Option ℝ
  compound : String

/-- `infdat_prep`, `effdat_prep`, GACapp.R:446-465. -/
def rDataPrep (ty : String) (rows : List RLong) : List RDataRow := rows.map fun r => ⟨ty, r.1, r.2.2, r.2.1⟩

/-- `outputconcentrations`, GACapp.R:1323-1329, 1340. -/
def rDataSave (inf eff : RFrame) : List RDataRow := rDataPrep "influent" inf.longer ++ rDataPrep "effluent" eff.longer

/-- A table as it is written to a file: times, and the columns with their names. -/
structure RWide where
  times : List ℝ
  cols : List (String × List (Option ℝ))

/-- The table of a frame. -/
def RFrame.wide (f : RFrame) : RWide :=
  ⟨List.ofFn f.time, (List.finRange f.m).map fun j => (f.name j, List.ofFn (f.val j))⟩

open Classical in
/-- The cell of `pivot_wider`: NA without a row; several rows make a list, which cannot be written (`none`). -/
def rCell (rows : List RDataRow) (t : ℝ) (c : String) : Option (Option ℝ) :=
  match rows.filter fun r => r.time = t ∧ r.compound = c with
  | [] => some none
  | [r] => some r.conc
  | _ => none

open Classical in
/-- The distinct elements in the order of their first occurrence. -/
def rUnique {α : Type} (l : List α) : List α := l.foldl (fun acc x => if x ∈ acc then acc else acc ++ [x]) []

/-- `pivot_wider(filter(dat, type == ty)[, 2:ncol(dat)], names_from = 'compound', values_from = 'concentration')`, GACapp.R:145-148:
times and compounds in the order of their first rows. -/
def rWiden (ty : String) (dat : List RDataRow) : Option RWide :=
  let rows := dat.filter fun r => r.type = ty
  let times := rUnique (rows.map (·.time))
  ((rUnique (rows.map (·.compound))).mapM fun c => (times.mapM fun t => rCell rows t c).map fun v => (c, v)).map fun cols =>
    ⟨times, cols⟩

/-! ### The form and the sheet `columnSpecs` -/

/-- The form: the inputs with units (`RGacIn`), porosity, `psdfr`, the densities, tortuosity, the numbers of collocation points and the
types of water and compounds, GACapp.R:560-660. -/
structure RGacForm extends RGacIn where
  epor : ℝ
  psdfr : ℝ
  pd : ℝ
  pdu : String
  ad : ℝ
  adu : String
  tortu : ℝ
  nr : ℕ
  nz : ℕ
  wfoul : String
  cfoul : String

/-- `density_conv`, GACapp.R:88. -/
def rDensConv : List (String × ℝ) := [("g/ml", 1)]
/-- `wfoulingvector`, `cfoulingvector`, GACapp.R:103-104. -/
def rWaters : List String := ["Organic Free", "Rhine", "Portage", "Karlsruhe", "Wausau", "Houghton"]
def rChems : List String := ["halogenated alkenes", "halogenated alkanes", "halogenated alkanes QSPR", "trihalo-methanes", "aromatics",
  "nitro compounds", "chlorinated hydrocarbon", "phenols", "PNAs", "pesticides", "PFAS"]

/-- The table of `column_data` with the rows that `RColumn` leaves out, GACapp.R:193-256. The row `time`, which takes the units of the
plot (247), only chooses a step of the integrator (PSDM.py:1353-1356) and is left out. -/
structure RColumnAll extends RColumn where
  epor : ℝ
  psdfr : ℝ
  rhop : ℝ
  rhof : ℝ
  tortu : ℝ
  units : String

/-- `column_data`, GACapp.R:193-256. -/
def rColumnAll (f : RGacForm) : Option RColumnAll := do
  let c ← rColumnData f.toRGacIn
  let p ← rDensConv.lookup f.pdu
  let a ← rDensConv.lookup f.adu
  some ⟨c, f.epor, f.psdfr, f.pd * p, f.ad * a, f.tortu, f.concUnits⟩

/-- The geometry the model takes from that table (`column_data`, PSDM.py:192-208). -/
def RColumnAll.geom (c : RColumnAll) : Geom where
  L := c.L
  diam := c.diam
  wt := c.wt
  flrt := c.flrt
  rhop := c.rhop
  rhof := c.rhof
  rad := c.rad
  tortu := c.tortu
  psdfr := c.psdfr
  epor := c.epor

/-- An entry of the column `value` of the sheet. Since some are words, `read.csv` gives text, which `format` leaves as it is. -/
inductive RVal where
  | num (x : ℝ)
  | word (s : String)

/-- The sheet `columnSpecs`: name, value, units. -/
abbrev RSpecs := List (String × RVal × Option String)

/-- `columnspecs_prep`, GACapp.R:472-478, as called in 1331-1336. -/
def rSpecsSave (f : RGacForm) : RSpecs :=
  [("carbonID", .word "F400", none), ("radius", .num f.prv, some f.pu), ("porosity", .num f.epor, none), ("psdfr", .num f.psdfr, none),
   ("particleDensity", .num f.pd, some "g/ml"), ("apparentDensity", .num f.ad, some "g/ml"), ("length", .num f.Lv, some f.lu),
   ("weight", .num f.wv, some f.wu), ("flowrate", .num f.Fv, some f.fu), ("diameter", .num f.Dv, some f.du),
   ("tortuosity", .num f.tortu, none), ("influentID", .word "influent", none), ("effluentID", .word "effluent", none),
   ("units", .word f.concUnits, none), ("time", .word f.tunits, none)]

/-- `filter(columnSpecs(), name == …)$value` into a numeric input. Without the row the input stays as it is. -/
def rSpecNum (s : RSpecs) (n : String) (d : ℝ) : ℝ :=
  match s.lookup n with
  | some (.num x, _) => x
  | _ => d
/-- The same into a menu, whose first entry it becomes. -/
def rSpecWord (s : RSpecs) (n d : String) : String :=
  match s.lookup n with
  | some (.word w, _) => w
  | _ => d
/-- `filter(columnSpecs(), name == …)$units` as first entry of a menu. (Without the row R selects the first unit of the application; here
the menu stays as it is.) -/
def rSpecUnit (s : RSpecs) (n d : String) : String :=
  match s.lookup n with
  | some (_, some u) => u
  | _ => d

/-- The form of a session that starts with the sheet `s`, from the form `f` of the user interface: GACapp.R:923-936, 949-1061. -/
def rSpecsLoad (s : RSpecs) (f : RGacForm) : RGacForm :=
  { f with
    linear := if (s.lookup "v").isSome then true else if (s.lookup "flowrate").isSome then false else f.linear
    Vv := rSpecNum s "v" f.Vv
    vu := rSpecUnit s "v" f.vu
    Fv := if (s.lookup "v").isSome then f.Fv else rSpecNum s "flowrate" f.Fv
    fu := rSpecUnit s "flowrate" f.fu
    Dv := rSpecNum s "diameter" f.Dv
    du := rSpecUnit s "diameter" f.du
    Lv := rSpecNum s "length" f.Lv
    lu := rSpecUnit s "length" f.lu
    prv := rSpecNum s "radius" f.prv
    pu := rSpecUnit s "radius" f.pu
    wv := rSpecNum s "weight" f.wv
    wu := rSpecUnit s "weight" f.wu
    concUnits := rSpecWord s "units" f.concUnits
    tunits := rSpecWord s "time" f.tunits
    epor := rSpecNum s "porosity" f.epor
    psdfr := rSpecNum s "psdfr" f.psdfr
    pd := rSpecNum s "particleDensity" f.pd
    pdu := rSpecUnit s "particleDensity" f.pdu
    ad := rSpecNum s "apparentDensity" f.ad
    adu := rSpecUnit s "apparentDensity" f.adu
    tortu := rSpecNum s "tortuosity" f.tortu
    nr := 7
    nz := 12 }

/-! ### The check before a run -/

open Classical in
/-- `error_handling() != 1`, GACapp.R:1101-1120; `none` when a unit is unknown, which stops the comparison with an error. -/
def rGacPasses (f : RGacForm) : Option Bool := do
  let w ← rWeightGac.lookup f.wu
  let d ← rLength.lookup f.du
  let l ← rLength.lookup f.lu
  let a ← rDensConv.lookup f.adu
  some (decide (¬ f.ad * a < f.wv * w / (Real.pi * (f.Dv * d / 2) ^ 2 * (f.Lv * l))) && rWaters.contains f.wfoul && rChems.contains f.cfoul)

/-! ### A session -/

/-- The files in `temp_file`. -/
structure RGacFiles (T : Type) where
  props : T
  k : T
  k2 : T
  specs : RSpecs
  inf : T
  eff : T
  foul : String × String

/-- The sheets of an uploaded workbook. -/
structure RGacBook (T : Type) where
  props : Option T
  k : Option T
  specs : Option RSpecs
  data : Option (T × T)
  foul : Option (String × String)

/-- `read_in_files`, GACapp.R:116-186. -/
def rGacRead {T : Type} (f : RGacFiles T) (b : RGacBook T) : RGacFiles T where
  props := b.props.getD f.props
  k := b.k.getD f.k
  k2 := b.k.getD f.k2
  specs := b.specs.getD f.specs
  inf := (b.data.map (·.1)).getD f.inf
  eff := (b.data.map (·.2)).getD f.eff
  foul := b.foul.getD ("Organic Free", "halogenated alkenes")

/-- Tables and form on the screen, the results of the last run and of the last fit. -/
structure RGacSess (T R : Type) where
  files : RGacFiles T
  props : T
  k : T
  inf : T
  eff : T
  form : RGacForm
  out : Option R
  fit : Option (R × T)

/-- The arguments of `run_PSDM`, GACapp.R:1127. -/
structure RGacCall (T : Type) where
  column : RColumnAll
  props : T
  k : T
  inf : T
  eff : T
  nr : ℕ
  nz : ℕ
  wfoul : String
  cfoul : String

/-- What a session depends on: the form of the user interface, the model, the fit, the table of zeros that stands for a fit (GACapp.R:1147,
1171-1177) and whether the first entry of a table of isotherms is 0 (1187). -/
structure RGacApp (T R : Type) where
  ui : RGacForm
  solve : RGacCall T → Except PyErr R
  fitter : RGacCall T → Except PyErr (R × T)
  zeros : T
  empty : T → Bool

variable {T R : Type}

/-- Start of a session, also after `session$reload()`: GACapp.R:908-915, 1071-1084, 1098, 1145-1148. -/
def RGacApp.start (A : RGacApp T R) (f : RGacFiles T) : RGacSess T R where
  files := f
  props := f.props
  k := f.k
  inf := f.inf
  eff := f.eff
  form := { rSpecsLoad f.specs A.ui with wfoul := f.foul.1, cfoul := f.foul.2 }
  out := none
  fit := none

/-- The call of the model, GACapp.R:1127, 1158: `nrv()` and `nzv()` are the constants of 963-964. -/
def rGacCall (s : RGacSess T R) : Option (RGacCall T) :=
  (rColumnAll s.form).map fun c => ⟨c, s.props, s.k, s.inf, s.eff, 7, 12, s.form.wfoul, s.form.cfoul⟩

/-- What the user can do. -/
inductive RGacEv (T : Type) where
  | edit (props k inf eff : T) (form : RGacForm)
  | run
  | fit
  | use
  | upload (b : RGacBook T)
  | reload

/-- One step: run 1122-1135, fit 1153-1168, "Use" 1180-1195, upload 880-899 of GACapp.R. An error of the fit ends the session. -/
def RGacApp.step (A : RGacApp T R) (s : RGacSess T R) : RGacEv T → RGacSess T R
  | .edit p k i e f => { s with props := p, k := k, inf := i, eff := e, form := f }
  | .run =>
    match rGacPasses s.form, rGacCall s with
    | some true, some c =>
      match A.solve c with
      | .ok r => { s with out := some r }
      | .error _ => s
    | _, _ => s
  | .fit =>
    match s.out, rGacCall s with
    | some _, some c =>
      match A.fitter c with
      | .ok r => { s with fit := some r }
      | .error _ => A.start s.files
    | _, _ => s
  | .use =>
    let new := (s.fit.map (·.2)).getD A.zeros
    let files := { s.files with k2 := s.k, k := new }
    if A.empty new then { s with files := files } else A.start { files with foul := (s.form.wfoul, s.form.cfoul) }
  | .upload b => A.start (rGacRead s.files b)
  | .reload => A.start s.files

/-- A session with a sequence of actions. -/
def RGacApp.exec (A : RGacApp T R) (s : RGacSess T R) (evs : List (RGacEv T)) : RGacSess T R := evs.foldl A.step s

/-- A point of the computed curve as it is drawn, GACapp.R:1230-1258: units and flow are those of the form now. -/
def rGacDrawn (f : RGacForm) (tu ou : String) (p : ℝ × ℝ) : Option ℝ × Option ℝ :=
  (rAxisGac f.toRHyd tu p.1, rConcGac f.concUnits ou p.2)

end
end WTM
