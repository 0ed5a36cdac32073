import Verif.Model.RPac

/-! Model of how `PAC_CFPSDM.__init__` of `Shiny-PAC/PAC.py` reads its three tables (385-437, 558, 574-575) before the part modelled as
`pacBuild` in `Pac.lean`, and of `R_run_PAC` as far as the tables go (1128-1146).

A cell is a text or a number, NaN being a number without value. How pandas reads a text as a number and how Python writes a number are
parameters. Row names of one table are distinct even when their case is ignored. `self.TIS` (568-571), `self.t_mult` (437) and
`self.time_incr` (559) are stored and never read; of these only the failure of 437 is modelled, and the factor. When several things are
wrong the exception is the first of: a value that is no number, the time unit, units that are no text, and then those of `pacBuild`; in
the source units that are no text are met row by row. -/
set_option autoImplicit false
namespace WTM
noncomputable section

/-- A cell of a table. -/
inductive PCell
  | text (s : String)
  | num (x : Option ℝ)

/-- A row of `contactor_df` or `pac_df`. -/
structure PLine where
  name : String
  value : PCell
  units : PCell

/-- `pd.to_numeric` on one text (`none`: `ValueError`) and `str` on one number. -/
structure PText where
  parse : String → Option (Option ℝ)
  str : Option ℝ → String

/-- `pd.to_numeric`, PAC.py:397, 401, 406. -/
def PText.number (T : PText) : PCell → Except PyErr (Option ℝ)
  | .num x => .ok x
  | .text s => match T.parse s with
    | some x => .ok x
    | none => .error .valueError

/-- `str`, PAC.py:394. -/
def PText.write (T : PText) : PCell → String
  | .text s => s
  | .num x => T.str x

/-- One pass of PAC.py:399-401. -/
def PLine.forceNum (T : PText) (r : PLine) : Except PyErr PLine := do
  let x ← T.number r.value
  pure { r with value := .num x }

/-- One pass of PAC.py:392-397. The name is compared before the change to lower case. -/
def PLine.force (T : PText) (r : PLine) : Except PyErr PLine :=
  if r.name = "format" then .ok { r with value := .text (T.write r.value) } else r.forceNum T

/-- One pass of PAC.py:403-406: a row of `compounds_df`, by compound. -/
def forceComp (T : PText) (r : String × List PCell) : Except PyErr (String × List PCell) :=
  if r.1 ≠ "C0_units" then do
    let xs ← r.2.mapM T.number
    pure (r.1, xs.map PCell.num)
  else .ok r

/-- PAC.py:416-419. -/
def PLine.lower (r : PLine) : PLine := { r with name := lowerStr r.name }

/-- `df.loc[name]`. -/
def getLine (t : List PLine) (name : String) : Option PLine := t.find? fun r => r.name = name

/-- A value used as a number. -/
def PLine.val (r : PLine) : Option ℝ :=
  match r.value with
  | .num x => x
  | .text _ => none

/-- Value and units; units that are no text have no `lower`. -/
def PLine.row (r : PLine) : Except PyErr PacRow :=
  match r.units with
  | .text u => .ok (r.val, u)
  | .num _ => .error .attributeError

/-- The same for a row that may be missing. -/
def rowOf (t : List PLine) (name : String) : Except PyErr (Option PacRow) :=
  match getLine t name with
  | none => .ok none
  | some r => do
    let x ← r.row
    pure (some x)

/-- The rows that `pacBuild` looks at, from tables with numbers in place and names in lower case (PAC.py:441-566). -/
def pacRows (T : PText) (con pac : List PLine) : Except PyErr PacIn := do
  let radius ← rowOf pac "radius"
  let length ← rowOf con "length/diameter"
  let height ← rowOf con "height"
  let volume ← rowOf con "volume"
  let flow ← rowOf con "flow"
  let hrt ← rowOf con "hrt"
  let crt ← rowOf con "crt"
  pure
    { density := (getLine pac "density").map PLine.val
      porosity := (getLine pac "porosity").map PLine.val
      radius := radius
      length := length
      format := (getLine con "format").map fun r => T.write r.value
      aspect := (getLine con "aspect ratio").map PLine.val
      height := height
      volume := volume
      flow := flow
      hrt := hrt
      crt := crt
      dosage := (getLine con "pac dosage").map PLine.val }

/-- Keyword arguments, PAC.py:422, 436, 558. -/
structure PacKw where
  nr : Option ℕ := none
  timeType : Option String := none
  duration : Option ℝ := none

/-- `np.max` of two numbers, either of which may be NaN. -/
def nmax (a b : Option ℝ) : Option ℝ := a.bind fun x => b.map fun y => max x y

/-- What the constructor has read. -/
structure PacHead where
  nc : ℕ
  temp : Option ℝ
  tMult : ℝ
  built : PacBuilt
  duration : Option ℝ
  comp : List (String × List PCell)
  conv : List ℝ

/-- One entry of `convert_array`, PAC.py:575. -/
def concFactor : PCell → Except PyErr ℝ
  | .text u => pacUnit pacConc u
  | .num _ => .error .keyError

/-- `convert_array`, PAC.py:575. -/
def convArray (comp : List (String × List PCell)) : Except PyErr (List ℝ) :=
  match comp.lookup "C0_units" with
  | none => .error .keyError
  | some us => us.mapM concFactor

/-- `PAC_CFPSDM.__init__`, PAC.py:385-575. -/
def pacConstruct (T : PText) (kw : PacKw) (con pac : List PLine) (comp : List (String × List PCell)) : Except PyErr PacHead := do
  let con ← con.mapM (PLine.force T)
  let pac ← pac.mapM (PLine.forceNum T)
  let comp ← comp.mapM (forceComp T)
  let con := con.map PLine.lower
  let pac := pac.map PLine.lower
  let tm ← pacUnit pacTime (kw.timeType.getD "min")
  let i ← pacRows T con pac
  let b ← pacBuild i
  let cv ← convArray comp
  pure
    { nc := kw.nr.getD 8
      temp := ((getLine con "temperature").map PLine.val).getD (some 20)
      tMult := tm
      built := b
      duration := (kw.duration.map some).getD (nmax b.hrt b.crt)
      comp := comp
      conv := cv }

/-- `contactor_session`, PACapp.R:674-678 (712-716): the column of values holds a text, so all of it is text. `w` writes a number as R
does; `tu` is the unit of the temperature. -/
def RPacForm.contactor (w : ℝ → String) (tu : String) (f : RPacForm) : List PLine :=
  [⟨"format", .text f.format, .text "NaN"⟩, ⟨"length/diameter", .text (w f.ld), .text f.ldunits⟩, ⟨"temperature", .text (w f.temp), .text tu⟩,
   ⟨"height", .text (w f.height), .text f.heightunits⟩, ⟨"volume", .text (w f.vol), .text f.volunits⟩,
   ⟨"flow", .text (w f.flow), .text f.flowunits⟩, ⟨"HRT", .text (w f.hrt), .text f.hrtunits⟩, ⟨"CRT", .text (w f.crt), .text f.crtunits⟩,
   ⟨"PAC Dosage", .text (w f.dosage), .text f.dosageunits⟩]

/-- `pac_session`, PACapp.R:680-684 (718-722): a column of numbers, and units as text. -/
def RPacForm.carbon (f : RPacForm) : List PLine :=
  [⟨"density", .num (some f.den), .text f.denunits⟩, ⟨"porosity", .num (some f.por), .text "NaN"⟩,
   ⟨"radius", .num (some f.rad), .text f.radunits⟩]

end
end WTM
