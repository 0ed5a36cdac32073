import Verif.Model.LeadLag

/-! `LLobj.__init__`, `io_data`, `_check_both` and the choice of compounds of the mixed runners, PSDM/psdm/lead_lag_class.py:56-83,
135-339, 636-692, 776-890, 903-911. Reading a file is the parameter that says whether it succeeds. Left out: title, job name,
collocation points of the carbon vessels, water and chemical type, printing. -/
set_option autoImplicit false
namespace WTM
noncomputable section

/-- A keyword that should be a table: not given (the text `'None'`), another text, a table, something else. -/
inductive TabArg
  | missing | text | table | other
  deriving DecidableEq

/-- `column_info`: one column of a table (with its influent name) or a table, whose row `influentID` has a name for each column. The
default (194-196) is a table with one column and influent `'influent'`. -/
inductive ColInfo
  | series (infl : String)
  | frame (infl : List String)

/-- A sheet of `self.ix_data`: a table with one level of column names, one with two, a python list. -/
inductive Sheet
  | flat (cols : List String)
  | nested
  | rows

/-- The workbook `ix_filename`; `none` is a sheet that cannot be read. Rows of `params` are name, value and unit. -/
structure ResinBook where
  params : Option (List (String × ℝ × String))
  cin : Option (List String × List ℝ)
  ions : Option (List String)

/-- The keywords. `raw` are the columns of `raw_data` if it is a table. `hasProp` are the compounds in the table of properties. -/
structure LLArgs where
  config : String
  props : TabArg
  propsFile : Bool
  hasProp : String → Bool
  raw : Option (List (String × String))
  compounds : Option (List String)
  kData : TabArg
  column : ColInfo
  counter : List String
  select : List String
  nr : ℝ
  nz : ℝ
  book : Option ResinBook

/-- What is kept: `error`, `compounds` (`none` is the text `'use raw_data'`), `avail_ions`, the three sheets of `ix_data`, the rows of
`params` and the times of `Cin` if there is a workbook. -/
structure LLInit where
  error : Bool
  compounds : Option (List String)
  avail : List String
  cin : Sheet
  params : Sheet
  ions : Sheet
  paramRows : List (String × ℝ × String)
  times : List ℝ

/-- `'gac' in text`. -/
def hasGac : List Char → Bool
  | 'g' :: 'a' :: 'c' :: _ => true
  | _ :: t => hasGac t
  | [] => false

/-- `error` after the properties, lead_lag_class.py:146-155. -/
def llErrProps (a : LLArgs) : Bool := decide (a.props = .missing) && !a.propsFile

/-- `chem_properties` can be asked for a compound afterwards: a table or, `other`, a dictionary; not a text. -/
def llPropsTable (a : LLArgs) : Bool :=
  match a.props with
  | .table => true
  | .missing => true
  | .text => a.propsFile
  | .other => true

/-- `compounds` and `error` after lead_lag_class.py:158-176. -/
def llCompounds (a : LLArgs) : Option (List String) × Bool :=
  match a.raw with
  | none => (a.compounds, true)
  | some cols =>
    match llErrProps a, a.compounds with
    | true, c => (c, true)
    | false, some c => (some c, false)
    | false, none =>
      if "influent" ∈ cols.map Prod.fst then (some ((cols.filter fun p => p.1 = "influent").map Prod.snd), false)
      else (none, true)

/-- `error` after the isotherms, lead_lag_class.py:179-186. -/
def llErrK (a : LLArgs) : Bool :=
  (llCompounds a).2 || (hasGac (lowerStr a.config).toList && decide (a.kData ≠ .table))

/-- `self.ix_raw_data`, lead_lag_class.py:215-217: not set if there is an error so far. -/
def llRaw (a : LLArgs) : Except PyErr (Option Sheet) :=
  if llErrK a then .ok none
  else
    let cols := a.raw.getD []
    match a.column with
    | .series i =>
      if i ∈ cols.map Prod.fst then .ok (some (.flat ((cols.filter fun p => p.1 = i).map Prod.snd ++ ["Time"])))
      else .error .keyError
    | .frame l => if ∀ i ∈ l, i ∈ cols.map Prod.fst then .ok (some .nested) else .error .keyError

/-- The ions without a workbook, lead_lag_class.py:271-273 with 341-351: a compound that is not yet there needs its properties; `compounds`
may be the text `'use raw_data'`, which has none of the names in it. -/
def llAvail (a : LLArgs) : List String → List String → Except PyErr (List String)
  | [], avail => .ok avail
  | c :: rest, avail =>
    if c ∈ ((llCompounds a).1.getD []) ∧ c ∉ avail then
      if !llPropsTable a then .error .typeError
      else if a.hasProp c ∧ ¬ (a.props = .missing ∧ a.propsFile = false) then llAvail a rest (avail ++ [c])
      else .error .keyError
    else llAvail a rest avail

/-- `table.loc[idx, 'value'] = x` for the first row of that name. -/
def setParam (n : String) (f : ℝ × String → ℝ × String) : List (String × ℝ × String) → List (String × ℝ × String)
  | [] => []
  | r :: rest => if r.1 = n then (n, f r.2) :: rest else r :: setParam n f rest

/-- The first `try`, lead_lag_class.py:282-295: the table left in `ix_data['params']` and whether it went through. -/
def llParams (a : LLArgs) (b : ResinBook) : Option (List (String × ℝ × String)) × Bool :=
  match b.params with
  | none => (none, false)
  | some p =>
    match p.lookup "nr", p.lookup "nz" with
    | some _, some _ => (some (setParam "nz" (fun q => (a.nz, q.2)) (setParam "nr" (fun q => (a.nr, q.2)) p)), true)
    | _, _ => (some p, false)

/-- The second `try`, lead_lag_class.py:296-311: `params`, `Cin`, its times and `error`. It sets `error` to `False`. -/
def llCin (p : Option (List (String × ℝ × String))) (b : ResinBook) :
    Option (List (String × ℝ × String)) × Sheet × List ℝ × Bool :=
  match b.cin with
  | none => (p, .rows, [], true)
  | some (cols, t) =>
    match p with
    | none => (p, .flat cols, t, true)
    | some rows =>
      match rows.lookup "time" with
      | none => (p, .flat cols, t, true)
      | some q => if q.2 = "hr" then (some (setParam "time" (fun q => (q.1, "day")) rows), .flat cols, t.map (· / 24), false)
        else (p, .flat cols, t, false)

/-- `__init__`, lead_lag_class.py:135-339. -/
def llInit (a : LLArgs) : Except PyErr LLInit :=
  match llRaw a with
  | .error e => .error e
  | .ok raw =>
    match a.book with
    | none =>
      match llAvail a a.select a.counter with
      | .error e => .error e
      | .ok avail =>
        match raw with
        | none => .error .attributeError
        | some cin => .ok ⟨llErrK a, (llCompounds a).1, avail, cin, .flat ["name", "value", "units"], .rows, [], []⟩
    | some b =>
      let p := (llParams a b).1
      let c := llCin p b
      match b.ions with
      | none => .error .typeError
      | some ions => .ok ⟨c.2.2.2, (llCompounds a).1, ions, c.2.1, match c.1 with | none => .rows | some _ => .flat ["name", "value", "units"],
          .flat ["name", "mw", "KxA", "valence", "units"], c.1.getD [], c.2.2.1⟩

/-- `io_data`, lead_lag_class.py:56-83, sheet by sheet. A list has no `to_excel`; for two levels of column names and `index=False`
pandas raises `NotImplementedError`, here `typeError`. -/
def ioData : List Sheet → Except PyErr Unit
  | [] => .ok ()
  | .flat _ :: rest => ioData rest
  | .nested :: _ => .error .typeError
  | .rows :: _ => .error .attributeError

/-- The sheets in the order of the dictionary, lead_lag_class.py:222. -/
def LLInit.sheets (o : LLInit) : List Sheet := [o.cin, o.params, o.ions]

/-- `PSDM.__init__` with `column_info`, PSDM.py:192: a table of columns has no column `'L'`. -/
def llColumn : ColInfo → Except PyErr String
  | .series i => .ok i
  | .frame _ => .error .keyError

/-- `_check_both`, lead_lag_class.py:911: compounds of the raw influent in the resin influent. -/
def sharedComps (raw cin : List String) : List String := raw.filter fun c => c ∈ cin

/-- `list(set(compounds + self.shared_compounds))`, lead_lag_class.py:670 and 810; in some order. -/
def useComps (asked raw cin : List String) : List String := (asked ++ sharedComps raw cin).dedup

/-- The compounds `run_LL_gac_ix` simulates in the carbon vessel, lead_lag_class.py:667-723: the raw data must have each of
`use_compounds` in both streams (687, 691), `k_data` each of the compounds asked for (716). -/
def gacIxComps (asked raw rawEff cin kComps : List String) : Except PyErr (List String) :=
  if ∃ c ∈ useComps asked raw cin, c ∉ raw ∨ c ∉ rawEff then .error .keyError
  else if ∃ c ∈ asked, c ∉ kComps then .error .keyError
  else .ok asked

/-- The compounds `run_LL_ix_gac` simulates in the carbon vessel, lead_lag_class.py:807-897: the resin influent (834, 838), the ions (866)
and `k_data` (887) must have each of `use_compounds`. -/
def ixGacComps (asked raw cin ions kComps : List String) : Except PyErr (List String) :=
  if ∃ c ∈ useComps asked raw cin, c ∉ cin ∨ c ∉ ions ∨ c ∉ kComps then .error .keyError
  else .ok (useComps asked raw cin)

end
end WTM
