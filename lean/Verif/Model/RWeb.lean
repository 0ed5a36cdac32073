import Verif.Model.RUnits
import Mathlib.Analysis.SpecialFunctions.Trigonometric.Basic
import Mathlib.Analysis.SpecialFunctions.Pow.Real

/-! What the web applications do between the form and the model, and between the model and the plots.

`none` is `NA`. Tables come with their time column first, as the applications write them; `cols` are the other columns in
order. The number of rows does not matter and a column is a list of numbers. -/
set_option autoImplicit false
namespace WTM
noncomputable section

/-- The hydraulic part of the form: `veloselect`, `Vv`, `Fv`, `Dv`, `Lv` with their units. -/
structure RHyd where
  linear : Bool
  Vv : ℝ
  vu : String
  Fv : ℝ
  fu : String
  Dv : ℝ
  du : String
  Lv : ℝ
  lu : String

/-- `Vv` of `model_prep` and `get_bv_in_sec`: Ion_Exchange_Model.R:856-860, 961-965 (flow table in mL/s),
GACapp.R:366-370 (flow table in mL/min). -/
def rSpeed (flow : List (String × ℝ)) (h : RHyd) : Option ℝ :=
  if h.linear then
    (rVelocity.lookup h.vu).map fun c => h.Vv * c
  else do
    let c ← flow.lookup h.fu
    let d ← rLength.lookup h.du
    some (h.Fv * c / (Real.pi / 4 * (h.Dv * d) ^ 2))

/-- `get_bv_in_sec`, Ion_Exchange_Model.R:854-867, GACapp.R:364-374. -/
def rBv (flow : List (String × ℝ)) (h : RHyd) : Option ℝ := do
  let v ← rSpeed flow h
  let l ← rLength.lookup h.lu
  some (h.Lv * l / v)

/-! ### Ion exchange -/

/-- Time axis of the plots, from hours: Ion_Exchange_Model.R:2342-2356. -/
def rAxisIex (h : RHyd) (unit : String) (hours : ℝ) : Option ℝ :=
  if unit = "Bed Volumes (x1000)" then
    (rBv rFlowIex h).map fun bv => hours / (bv / rHour2sec) / 1e3
  else
    (rTimeIex.lookup unit).map fun c => hours / (c / rHour2sec)

/-- Hours of the influent and effluent tables for the plots: Ion_Exchange_Model.R:2102-2113, 2149-2160. -/
def rTableHours (tunits : String) (t : ℝ) : ℝ := if tunits = "hr" then t else t * 24

/-- Hours of the results: times of the table in seconds, Ion_Exchange_Model.R:329, 1039, over 3600, 472. -/
def rResultHours (tunits : String) (t : ℝ) : Option ℝ := (rTimeIex.lookup tunits).map fun c => t * c / 60 / 60

/-- A row of the ion sheet, as far as concentrations and transport need it. -/
structure RIon where
  name : String
  mw : ℝ
  valence : ℝ
  concUnits : String

/-- `mass_mult` of `cin_correct`, Ion_Exchange_Model.R:882-886. -/
def rMeqMult (i : RIon) : Option ℝ :=
  if i.concUnits ≠ "meq" then (rMassIex.lookup i.concUnits).map fun c => c / i.mw * i.valence else some 1

/-- `cin_correct`, Ion_Exchange_Model.R:874-899: every ion overwrites the column of its name with the original column
times its factor. `none` stands for a missing column (an error in R) or a factor `NA`, which makes the column `NA`. -/
def rCinCorrect (ions : List RIon) (cols : List (String × List ℝ)) : Option (List (String × List ℝ)) :=
  ions.foldlM (fun corr i => do
    let m ← rMeqMult i
    let v ← cols.lookup i.name
    some (corr.map fun c => if c.1 = i.name then (c.1, v.map (· * m)) else c)) cols

/-- The check of names, Ion_Exchange_Model.R:994-1012: the number of errors. -/
def rNameErrors (ions : List RIon) (cols : List (String × List ℝ)) : ℕ :=
  (ions.filter fun i => !(cols.map (·.1)).contains i.name).length +
    (cols.filter fun c => c.1 != "time" && !(ions.map (·.name)).contains c.1).length

/-- The influent the solvers interpolate for ion number `k`: column `k + 1` of the corrected table, the time being column 1
(Ion_Exchange_Model.R:322, 359-362, and 515, 553-556 for the other model). -/
def rInfluent (ions : List RIon) (cols : List (String × List ℝ)) (k : ℕ) : Option (List ℝ) :=
  if rNameErrors ions cols = 0 then do
    let corr ← rCinCorrect ions cols
    let c ← corr[k]?
    some c.2
  else none

/-- `mass_mult` of `mass_converter_mgl`, Ion_Exchange_Model.R:1193-1201. -/
def rMglMult (i : RIon) : Option ℝ :=
  if i.concUnits = "meq" ∨ i.concUnits = "meq/L" then some (i.mw / i.valence) else rMassIex.lookup i.concUnits

/-- `massvector_meq` of `HSDMIX_in_hours_mgl`, Ion_Exchange_Model.R:1062. -/
def rOutMult (i : RIon) : ℝ := i.mw / i.valence

/-- `meq_conv` of `cc0_conv_meq`, Ion_Exchange_Model.R:1166-1174. -/
def rCc0Mult (i : RIon) : Option ℝ :=
  if i.concUnits = "meq" ∨ i.concUnits = "meq/L" then some 1
  else (rMassIex.lookup i.concUnits).map fun c => c * i.valence / i.mw

/-- `HSDMIX_cc0` of the computed effluent, Ion_Exchange_Model.R:1101-1111, 2283: ion `k` over entry `k` of `cc0_conv_meq`,
which follows the columns of the influent table (1175-1180). `out` are the curves in the order of the ions. -/
def rCc0Iex (ions : List RIon) (cols : List (String × List ℝ)) (out : List (List ℝ)) (k : ℕ) : Option (List ℝ) := do
  let col ← cols[k]?
  let i ← ions.find? fun i => i.name = col.1
  let m ← rCc0Mult i
  let c ← col.2.head?
  let ys ← out[k]?
  some (ys.map (· / (c * m)))

/-- Curves of the two plots, Ion_Exchange_Model.R:2311-2326: of the curves, one per ion and `nt` rows each, the first
`number_of_ions` go to the counter-ion plot and the rest to the other one. With nothing left, `addIon_loc():nrow` counts
backwards: a row of `NA` and the last row. -/
def rCounterList : List String := ["CHLORIDE", "SULFATE", "BICARBONATE", "NITRATE"]

def rCounterCount (cols : List (String × List ℝ)) : ℕ := (rCounterList.filter fun n => (cols.map (·.1)).contains n).length

/-- Rows of the counter-ion plot; a row is a name with its value. -/
def rCounterRows (n nt : ℕ) (rows : List (String × ℝ)) : List (Option (String × ℝ)) := (rows.take (n * nt)).map some

/-- Rows of the other plot. -/
def rOtherRows (n nt : ℕ) (rows : List (String × ℝ)) : List (Option (String × ℝ)) :=
  if n * nt + 1 ≤ rows.length then (rows.drop (n * nt)).map some
  else (List.range (n * nt + 2 - rows.length)).map fun j => rows[n * nt - j]?

/-! ### Carbon column -/

/-- The other numbers of the form of the carbon application. -/
structure RGacIn extends RHyd where
  prv : ℝ
  pu : String
  wv : ℝ
  wu : String
  concUnits : String
  tunits : String

/-- The part of the table of `column_data` that carries units. -/
structure RColumn where
  rad : ℝ
  L : ℝ
  wt : ℝ
  flrt : ℝ
  diam : ℝ
  massMul : ℝ
  flowMult : ℝ
  tMult : ℝ

/-- `Fv` of `column_data`, GACapp.R:194-198. -/
def rGacFlow (h : RHyd) : Option ℝ :=
  if h.linear then do
    let d ← rLength.lookup h.du
    let c ← rVelocity.lookup h.vu
    some (Real.pi / 4 * (h.Dv * d) ^ 2 * h.Vv * c * rMin2sec)
  else (rFlowGac.lookup h.fu).map fun c => h.Fv * c

/-- `column_data`, GACapp.R:193-256. -/
def rColumnData (g : RGacIn) : Option RColumn := do
  let p ← rLength.lookup g.pu
  let l ← rLength.lookup g.lu
  let w ← rWeightGac.lookup g.wu
  let f ← rGacFlow g.toRHyd
  let d ← rLength.lookup g.du
  some ⟨g.prv * p, g.Lv * l, g.wv * w, f, g.Dv * d,
    if g.concUnits = "ug" then 1 else if g.concUnits = "ng" then 0.001 else 1000, 0.001,
    if g.tunits = "days" then 1440 else 60⟩

/-- Time axis of the plots, from the times of the table: GACapp.R:1233-1243. -/
def rAxisGac (h : RHyd) (unit : String) (t : ℝ) : Option ℝ :=
  if unit = "Bed Volumes (x1000)" then
    (rBv rFlowGac h).map fun bv => t / (bv / (rDay2sec / rMin2sec)) / 1e3
  else (rTimeGac.lookup unit).map fun c => t * c

/-- Concentration axis, GACapp.R:351, 1254. -/
def rConcGac (concUnits outUnits : String) (c : ℝ) : Option ℝ := do
  let a ← rMassGac.lookup concUnits
  let b ← rMassGac.lookup outUnits
  some (c * a / b)

/-- The curves shown for c/c0: `cc0_conv_ngl` (GACapp.R:402-416) divides column `k` of the output by column `k` of the first
row of the influent table; the plot shows the result under the names of the output (1246-1252, 1266-1271). `mapply` needs
as many columns on both sides. -/
def rCc0Gac (conc : List (String × ℝ)) (out : List (String × List ℝ)) : List (String × List ℝ) :=
  List.zipWith (fun c o => (o.1, o.2.map (· / c.2))) conc out

/-! ### Calculators of the ion-exchange application -/

/-- Equilibrium constants, Ion_Exchange_Model.R:1992-1994. -/
def rK1 : ℝ := 10 ^ (-6.352 : ℝ)
def rK2 : ℝ := 10 ^ (-10.329 : ℝ)
def rKW : ℝ := 10 ^ (-14 : ℝ)

/-- Fractions of the total carbonate, Ion_Exchange_Model.R:2005-2007. -/
def rAlpha0 (h : ℝ) : ℝ := 1 / (1 + rK1 / h + rK1 * rK2 / h ^ 2)
def rAlpha1 (h : ℝ) : ℝ := 1 / (1 + h / rK1 + rK2 / h)
def rAlpha2 (h : ℝ) : ℝ := 1 / (1 + h / rK2 + h ^ 2 / (rK1 * rK2))

/-- Total carbonate in mol/L, Ion_Exchange_Model.R:2002-2003, 2010. -/
def rTotCO3 (pH alk : ℝ) : ℝ :=
  let h := (10 : ℝ) ^ (-pH)
  (alk / 50000 + h - rKW / h) / (rAlpha1 h + 2 * rAlpha2 h)

/-- Bicarbonate in mmol/L, mg C/L and mg HCO3/L, or `INVALID`: Ion_Exchange_Model.R:2011-2031. -/
def rBicarb (pH alk : ℝ) : Option (ℝ × ℝ × ℝ) :=
  let x := rAlpha1 ((10 : ℝ) ^ (-pH)) * (1000 * rTotCO3 pH alk)
  open Classical in if 0 ≤ x then some (x, x * 12, x * 61) else none

/-- `viscosity`, Ion_Exchange_Model.R:2044-2045. -/
def rViscosity (temp : ℝ) : ℝ :=
  let t := temp + 273.15
  Real.exp (-24.71 + 4209 / t + 0.04527 * t - 3.376e-5 * t ^ 2) / 100

/-- `density`, Ion_Exchange_Model.R:2048-2049. -/
def rDensity (temp : ℝ) : ℝ :=
  let t := (temp + 273.15) / 324.65
  0.98396 * (-1.41768 + 8.97665 * t - 12.2755 * t ^ 2 + 7.45844 * t ^ 3 - 1.73849 * t ^ 4)

/-- `film_transfer_coeff`, Ion_Exchange_Model.R:2056-2074, from the molar volume and the numbers of the form: `rbv`, `Vv`
and `EBEDv` as they were entered. -/
def rFilm (temp molarVol rbv Vv ebed : ℝ) : ℝ :=
  let mu1 := rViscosity temp * 100
  let D := 13.26e-5 * mu1 ^ (-1.14 : ℝ) * molarVol ^ (-0.589 : ℝ)
  let rho := rDensity temp
  let mu2 := rViscosity temp
  let dP := 2 * rbv
  let u := Vv / ebed
  let Re := u * dP * (rho / mu2)
  let Sc := mu2 / rho / D
  let Sh := (2 + 0.644 * Re ^ (1 / 2 : ℝ) * Sc ^ (1 / 3 : ℝ)) * (1 + 1.5 * (1 - ebed))
  Sh * D / dP

end
end WTM
