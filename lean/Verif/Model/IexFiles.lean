import Verif.Model.IexLoad

/-! Reading and saving of the batch models, hsdmixbatch.py:25-110 and psdmixbatch.py:25-109 (the same text), the labels
of saved columns, hsdmix.py:260-277, and the command line, runner.py:15-50 with `__main__.py`. Writing the workbook is
not modelled: `fileOf` is what is read back. The columns of a result are those of the ions. Of `%.8f` the rule for
values half way between two decimals is not modelled. -/
set_option autoImplicit false
namespace WTM
noncomputable section

/-- Initial concentrations, hsdmixbatch.py:34-45: one column of one value per ion. -/
def loadBatchIons (ions : List Ion) (c0 : Columns) : Except PyErr Columns :=
  convDatabase ions (fun i => i.units) (fun _ => "meq") c0

/-- `n + ' (' + u + '/L)'`, hsdmixbatch.py:104. -/
def colLabel (n u : String) : String := n ++ " (" ++ u ++ "/L)"

/-- `new_col_name`, hsdmixbatch.py:102-106, hsdmix.py:269-273. -/
def labelCols (ions : List Ion) (units : Option String) (cs : Columns) : Columns :=
  cs.map fun p =>
    match ions.find? fun i => i.name = p.1 with
    | some i => (colLabel p.1 (units.getD i.units), p.2)
    | none => p

/-- `save_results` of the batch models, hsdmixbatch.py:65-110: `ts` are the times of the solver, `data` the
concentrations in the water. -/
def saveBatch (ions : List Ion) (units : Option String) (period : String) (ts : List ℝ) (data : Columns) :
    Except PyErr (List ℝ × Columns) :=
  match Simple.time.conv "sec" period [] with
  | .error e => .error e
  | .ok f =>
    match saveConc ions units data with
    | .error e => .error e
    | .ok cs => .ok (ts.map (fun t => t * f.factor), labelCols ions units cs)

/-- What `save_results` of a column reads, hsdmix.py:236-267. -/
structure Solved where
  ions : List Ion
  L : ℝ
  v : ℝ
  timeback : ℝ
  ts : List ℝ
  data : Columns

/-- `save_results`, hsdmix.py:233-277. -/
def saveColumn (s : Solved) (units : Option String) (period : String) : Except PyErr (List ℝ × Columns) :=
  match s.ts.mapM (saveTime period s.L s.v s.timeback) with
  | .error e => .error e
  | .ok idx =>
    match saveConc s.ions units s.data with
    | .error e => .error e
    | .ok cs => .ok (idx, labelCols s.ions units cs)

/-- The arguments, runner.py:15-30, without the files. -/
structure IxArgs where
  mode : String
  tUnit : Option String
  cUnit : Option String

/-- `if args.t_unit:`, runner.py:37-40: an option that is missing or empty is not passed on. -/
def optArg (o : Option String) : Option String :=
  match o with
  | some s => if s = "" then none else some s
  | none => none

/-- `run_ixpy`, runner.py:33-50, after `parse_args` (24, where another mode ends the program): `run` is reading and
solving with the model named. -/
def runIxpy (run : String → Except PyErr Solved) (a : IxArgs) : Except PyErr (List ℝ × Columns) :=
  if a.mode = "hsdm" ∨ a.mode = "psdm" then
    match run a.mode with
    | .error e => .error e
    | .ok s => saveColumn s (optArg a.cUnit) ((optArg a.tUnit).getD "hours")
  else .error .sysExit

/-- `float('%.8f' % x)`, hsdmixbatch.py:108, hsdmix.py:275: pandas rounds every number it writes. -/
def fmt8 (x : ℝ) : ℝ := (round (x * 10 ^ 8) : ℝ) / 10 ^ 8

/-- The table in the file, times included. -/
def fileOf (t : List ℝ × Columns) : List ℝ × Columns :=
  (t.1.map fmt8, t.2.map fun p => (p.1, p.2.map fmt8))

end
end WTM
