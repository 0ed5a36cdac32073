import Mathlib.Analysis.SpecialFunctions.Pow.Real
import Verif.Model.Units

/-! Model of the parameter sheet and ion table handling:
`IonExchangeModel/ixpy/paramsheets.py` 311-497, `hsdmix.py` 94-277 (the same code is inherited by
`psdmix.py` and the batch classes), `converter.py`. -/
set_option autoImplicit false
namespace WTM
noncomputable section

/-- One row of the `params` sheet (index, `value`, `units`). -/
structure Row where
  name : String
  value : ℝ
  units : String

/-- `conv_fn` entries of the dictionary `u_fn` (paramsheets.py:435-441). -/
inductive PConv
  | simple (s : Simple)
  | compound (c : Compound)
  /-- `conv_the_same` (360-362): factor 1, nothing checked. -/
  | same

/-- Calling a converter. -/
def PConv.conv : PConv → String → String → List String → Except PyErr Conv
  | .simple s, a, b, ans => s.conv a b ans
  | .compound c, a, b, ans => c.conv a b ans
  | .same, a, b, ans => .ok ⟨1, a, b, ans⟩

/-- The dictionaries `u_out` and `u_fn` together (paramsheets.py:425-441): target unit and converter
of every recognised (lower-case) parameter name. Target `None` is written `""`. -/
def paramTable : List (String × PConv × String) :=
  [("time", .simple .time, "s"), ("rhop", .compound .density, "g/ml"),
   ("rb", .simple .length, "cm"), ("kl", .compound .velocity, "cm/s"),
   ("ds", .compound .diffusivity, "cm2/s"), ("v", .compound .velocity, "cm/s"),
   ("qm", .compound (.capMass 1 1), "meq/kg"), ("l", .simple .length, "cm"),
   ("flrt", .compound .flow, "cm3/s"), ("diam", .simple .length, "cm"),
   ("qf", .compound (.capVol 1 1), "meq/L"), ("ebed", .same, ""), ("nz", .same, ""),
   ("nr", .same, ""), ("epor", .same, ""), ("dp", .compound .diffusivity, "cm2/s"),
   ("w", .same, ""), ("m", .simple .weight, "g"), ("vl", .simple .volume, "L"),
   ("t_end", .simple .time, "s")]

/-- Dictionary lookup `u_out[p]`, `u_fn[p]` (paramsheets.py:446-447; `KeyError` when absent). -/
def paramEntry (name : String) : Option (PConv × String) :=
  (paramTable.find? (fun p => p.1 = name)).map Prod.snd

/-- First row with a given index label. -/
def findRow (rows : List Row) (name : String) : Option Row := rows.find? (fun r => r.name = name)

/-- Python's `str.lower`, on ASCII characters. -/
def lowerStr (s : String) : String := String.ofList (s.toList.map Char.toLower)

/-- `lowercaseIndex` and `lowercaseData` (paramsheets.py:14-47, 417-418). Numbers are left alone. -/
def Row.lower (r : Row) : Row := ⟨lowerStr r.name, r.value, lowerStr r.units⟩

/-- One pass of the loop of `conv_params` (paramsheets.py:348-356): multiply by the factor, record the
target unit. The `except` branch (non-numeric value) is not modelled: values are numbers. -/
def convRow (r : Row) (ans : List String) : Except PyErr (Row × List String) :=
  match paramEntry r.name with
  | none => .error .keyError
  | some (fn, target) =>
    match fn.conv r.units target ans with
    | .error e => .error e
    | .ok c => .ok (⟨r.name, r.value * c.factor, target⟩, c.rest)

/-- `conv_params` (paramsheets.py:335-358). -/
def convParams : List Row → List String → Except PyErr (List Row × List String)
  | [], ans => .ok ([], ans)
  | r :: rs, ans =>
    match convRow r ans with
    | .error e => .error e
    | .ok (r', ans') =>
      match convParams rs ans' with
      | .error e => .error e
      | .ok (rs', ans'') => .ok (r' :: rs', ans'')

/-- `Q_calc` (paramsheets.py:364-386) on the dictionary of converted values. The missing-parameter
branch prints and then returns an unassigned local: `UnboundLocalError`. Division by zero when
`EBED = 1` (numpy inf) is an error here. -/
def qCalc (get : String → Option ℝ) : Except PyErr ℝ :=
  match get "qm", get "rhop" with
  | some qm, some rhop => .ok (qm * rhop)
  | _, _ =>
    match get "qf", get "ebed" with
    | some qf, some ebed => if 1 - ebed = 0 then .error .zeroDivision else .ok (qf / (1 - ebed))
    | _, _ => .error .unboundLocal

/-- `correct_idx` (paramsheets.py:431-433). -/
def correctIdx : List (String × String) :=
  [("rhop", "RHOP"), ("qm", "Qm"), ("ebed", "EBED"), ("l", "L"), ("kl", "kL"), ("ds", "Ds"),
   ("qf", "Qf"), ("dp", "Dp"), ("epor", "EPOR"), ("vl", "VL"), ("vr", "VR"), ("t_end", "t_end")]

/-- Renaming one index label (paramsheets.py:494-495). -/
def rename (n : String) : String :=
  match correctIdx.find? (fun p => p.1 = n) with
  | some p => p.2
  | none => n

/-- Renaming the label of a row. -/
def Row.rename (r : Row) : Row := ⟨WTM.rename r.name, r.value, r.units⟩

/-- The velocity / batch block (paramsheets.py:455-481): rows appended to the sheet. `low_data` is the
same object as `params_out`, so units and diameter read here are the converted ones. -/
def extraRows (rows : List Row) (ans : List String) : Except PyErr (List Row) :=
  match findRow rows "v", findRow rows "flrt" with
  | some _, _ => .ok []
  | none, some fl =>
    match findRow rows "diam" with
    | none => .error .keyError
    | some d =>
      match convFrToVel fl.units "cm" "s" d.value d.units ans with
      | .error e => .error e
      | .ok f => .ok [⟨"v", fl.value * f, "cm/s"⟩]
  | none, none =>
    match findRow rows "w", findRow rows "m", findRow rows "rhop" with
    | some w, some m, some rho => .ok [⟨"VR", (1 - w.value) * m.value / rho.value / 1.0e3, "L"⟩]
    | _, _, _ => .error .keyError

/-- `conv_params_data` (paramsheets.py:404-497). `to_dict('index')` (421) needs distinct labels
(`ValueError`); an unknown label is a `KeyError` before anything is converted (444-447). -/
def convParamsData (sheet : List Row) (ans : List String) : Except PyErr (List Row) :=
  let low := sheet.map Row.lower
  if ¬ (low.map Row.name).Nodup then .error .valueError
  else if low.any (fun r => (paramEntry r.name).isNone) then .error .keyError
  else
    match convParams low ans with
    | .error e => .error e
    | .ok (rows, ans') =>
      match extraRows rows ans' with
      | .error e => .error e
      | .ok extra =>
        match qCalc (fun n => (findRow (rows ++ extra) n).map Row.value) with
        | .error e => .error e
        | .ok q => .ok ((rows ++ extra ++ [Row.mk "Q" q "meq/L"]).map Row.rename)

/-- The value of a named parameter in the final sheet (`self.params[name]`). -/
def getParam (rows : List Row) (name : String) : Option ℝ := (findRow rows name).map Row.value

/-- `load_data`, hsdmix.py:133-136: a bead capacity `Q` becomes a filter capacity `Qf`. Every row
labelled `Q` is rescaled and renamed. -/
def capToFilter (sheet : List Row) : Except PyErr (List Row) :=
  match findRow sheet "Q" with
  | none => .ok sheet
  | some _ =>
    match findRow sheet "EBED" with
    | none => .error .keyError
    | some e =>
      .ok (sheet.map (fun r => if r.name = "Q" then ⟨"Qf", r.value * (1 - e.value), r.units⟩ else r))

/-- Parameter part of `load_data`, hsdmix.py:133-140. -/
def loadParams (sheet : List Row) (ans : List String) : Except PyErr (List Row) :=
  match capToFilter sheet with
  | .error e => .error e
  | .ok s => convParamsData s ans

/-! ### The ion table and influent -/

/-- A row of the `ions` sheet. `kL` and `ds` are `none` when the sheet has no such column. -/
structure Ion where
  name : String
  mw : ℝ
  valence : ℝ
  units : String
  kL : Option ℝ
  ds : Option ℝ

/-- Backward compatibility, hsdmix.py:117-121 (the `Dp` block 123-124 is identical): the raw sheet
value is copied into every ion, "ignores units". A column is present for all ions or for none. -/
def fillCoeffs (sheet : List Row) (ions : List Ion) : List Ion :=
  ions.map fun i =>
    { i with
      kL := match i.kL with
        | some k => some k
        | none => getParam sheet "kL"
      ds := match i.ds with
        | some k => some k
        | none => getParam sheet "Ds" }

/-- `bicarbMW` (hsdmix.py:46). -/
def bicarbMW : ℝ := 61.02

/-- `k1`, `k2` at hsdmix.py:166-167. -/
def k1 : ℝ := (10 : ℝ) ^ (-6.42 : ℝ)
def k2 : ℝ := (10 : ℝ) ^ (-10.43 : ℝ)

/-- hsdmix.py:169, 180. -/
def carbAlpha (pH : ℝ) : ℝ :=
  let h := (10 : ℝ) ^ (-pH)
  (k1 * h) / (h ^ 2 + k1 * h + k1 * k2)

/-- Influent table: one named column of values per species. -/
abbrev Columns := List (String × List ℝ)

/-- Column lookup. -/
def column (cs : Columns) (n : String) : Option (List ℝ) := (cs.find? (fun p => p.1 = n)).map Prod.snd

/-- One pass of the loop of `conv_database` (paramsheets.py:327-329): the ion's column is multiplied
by the factor from its unit to its target; `KeyError` when the ion has no column. Interactive
correction of units is not modelled here (no answers). -/
def convColumn (i : Ion) (uIn uOut : String) (cs : Columns) : Except PyErr Columns :=
  match (Simple.conc i.mw i.valence).conv uIn uOut [] with
  | .error e => .error e
  | .ok c =>
    match column cs i.name with
    | none => .error .keyError
    | some _ =>
      .ok (cs.map fun p => if p.1 = i.name then (p.1, p.2.map (fun x => c.factor * x)) else p)

/-- `conv_database` (paramsheets.py:311-331). Columns that belong to no ion are kept as they are. -/
def convDatabase : List Ion → (Ion → String) → (Ion → String) → Columns → Except PyErr Columns
  | [], _, _, cs => .ok cs
  | i :: is, uIn, uOut, cs =>
    match convColumn i (uIn i) (uOut i) cs with
    | .error e => .error e
    | .ok cs' => convDatabase is uIn uOut cs'

/-- What `load_data` leaves in the object, as far as ions are concerned. -/
structure IonData where
  /-- `self.valences`, captured at line 142 -/
  valences : List ℝ
  /-- `self.ions` (and `self.names`, line 213) -/
  ions : List Ion
  /-- `self.Cin_t` after conversion to meq/L -/
  cin : Columns

/-- `self.ions.loc['BICARBONATE'] = …` (hsdmix.py:153-156): overwrite in place if the label exists,
append otherwise; then drop `ALKALINITY` (185). -/
def addBicarb (ions : List Ion) (alk : Ion) : List Ion :=
  let b : Ion := { alk with name := "BICARBONATE", mw := bicarbMW, valence := 1 }
  let withB := if ions.any (fun i => i.name = "BICARBONATE") then
      ions.map (fun i => if i.name = "BICARBONATE" then b else i)
    else ions ++ [b]
  withB.filter (fun i => i.name ≠ "ALKALINITY")

/-- The alkalinity block, hsdmix.py:148-188. Result: new ions and new columns. -/
def alkalinity (ions : List Ion) (cin : Columns) : Except PyErr (List Ion × Columns) :=
  match column cin "BICARBONATE" with
  | some _ => .ok (ions, cin)
  | none =>
    match column cin "ALKALINITY", column cin "PH" with
    | some alk, some ph =>
      match ions.find? (fun i => i.name = "ALKALINITY") with
      | none => .error .keyError
      | some a =>
        match (Simple.conc a.mw a.valence).conv a.units "meq" [],
              (Simple.conc bicarbMW 1).conv a.units "meq" [] with
        | .ok ca, .ok cb =>
          let b := List.zipWith (fun x p => carbAlpha p * x * ca.factor / cb.factor) alk ph
          .ok (addBicarb ions a,
            ((cin ++ [("BICARBONATE", b)]).filter (fun p => p.1 ≠ "ALKALINITY")).filter
              (fun p => p.1 ≠ "PH"))
        | .error e, _ => .error e
        | _, .error e => .error e
    | _, _ => .ok (ions, cin)

/-- Ion part of `load_data`, hsdmix.py:142-213. -/
def loadIons (ions : List Ion) (cin : Columns) : Except PyErr IonData :=
  match alkalinity ions cin with
  | .error e => .error e
  | .ok (ions', cin') =>
    match convDatabase ions' (fun i => i.units) (fun _ => "meq") cin' with
    | .error e => .error e
    | .ok c => .ok ⟨ions.map Ion.valence, ions', c⟩

/-- Valence used by `solve` for the `i`-th simulated ion (hsdmix.py:336-343 pair `self.valences[i]`
with `self.names[i]`). -/
def IonData.simValence (d : IonData) (i : ℕ) : Option ℝ := d.valences[i]?

/-- Concentration part of `save_results` (hsdmix.py:236-265): from meq/L to the units given, or each
ion's own units. -/
def saveConc (ions : List Ion) (units : Option String) (data : Columns) : Except PyErr Columns :=
  convDatabase ions (fun _ => "meq") (fun i => units.getD i.units) data

/-- Time part of `save_results` (hsdmix.py:248-258): `result.t * timeback`, then bed volumes or a time
unit. -/
def saveTime (period : String) (L v timeback T : ℝ) : Except PyErr ℝ :=
  if period = "BV" then .ok (T * timeback / (L / v))
  else match Simple.time.conv "sec" period [] with
    | .error e => .error e
    | .ok c => .ok (T * timeback * c.factor)

/-! ### `conv_iex_u` -/

/-- The factor of `converter.conv_iex_u` (converter.py:16-27). -/
def iexFactor (i : Ion) : ℝ :=
  if i.units = "ug" then i.mw * 1e3
  else if i.units = "ng" then i.mw * 1e6
  else if i.units = "mg" then i.mw * 1
  else (i.mw / i.valence) / 1000

/-- The factor of `lead_lag_class.conv_iex_u` (lead_lag_class.py:90-99). -/
def iexFactorLL (i : Ion) : ℝ :=
  if i.units = "ug" then i.mw * 1e3
  else if i.units = "ng" then i.mw * 1e6
  else if i.units = "mg" then i.mw * 1
  else 1

/-- converter.py:37, lead_lag_class.py:104: values `<= 0` become `1e-16`. -/
def floorPos (x : ℝ) : ℝ := if x ≤ 0 then 1e-16 else x

/-- One column of the table returned by `conv_iex_u` (converter.py:30, 37), outlet concentrations
`u[0, i, -1, :]` as a list over time. -/
def convIexU (factor : Ion → ℝ) (i : Ion) (u : List ℝ) : List ℝ :=
  (u.map (fun x => x * factor i)).map floorPos

end
end WTM
