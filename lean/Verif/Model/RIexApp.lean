import Verif.Model.RGac
import Verif.Model.RWeb

/-! Model of the server of the ion-exchange web application, `Shiny-IEX/Ion_Exchange_Model.R`: the arguments of a run, measured points on
the plots, saved results, the sheet of parameters in a saved workbook and after its upload, the upload of workbooks, and what is on the
screen after a sequence of actions. Units, influent and the split of the plots are modelled in RWeb.lean, the solvers in RIex.lean.

Tables have the column `time` first and are given by their times and their other columns; there are no empty cells, except that a session
knows whether there are. Names of columns that R would change (`make.names`) are not considered. Observers of a session have come to rest
before the next action. -/
set_option autoImplicit false
namespace WTM
noncomputable section

/-! ### The form and the run -/

/-- The form: `model` (`psdm` for "Macroporous (PSDM)"), `Qv`, `EBEDv`, `EPORv`, the hydraulic part, the bead radius, the numbers of
collocation points and the units of time, Ion_Exchange_Model.R:1396-1527. -/
structure RIexForm extends RHyd where
  psdm : Bool
  Q : ℝ
  ebed : ℝ
  epor : ℝ
  rbv : ℝ
  rbu : String
  nr : ℝ
  nz : ℝ
  tunits : String

/-- A row of the ion sheet with its transport coefficients. -/
structure RIonRow extends RIon where
  kL : ℝ
  kLu : String
  Ds : ℝ
  Dsu : String
  Dp : ℝ
  Dpu : String

/-- What `model_prep` hands to the solvers: the table of parameters and `timeconverter`, Ion_Exchange_Model.R:961-992, 1039. -/
structure RIexParams where
  Q : ℝ
  ebed : ℝ
  epor : Option ℝ
  L : ℝ
  v : ℝ
  rb : ℝ
  nr : ℝ
  nz : ℝ
  tconv : ℝ

/-- The table of parameters in `model_prep`, Ion_Exchange_Model.R:961-992, 1039; `none` when a unit is not in its table. -/
def rIexParams (f : RIexForm) : Option RIexParams := do
  let v ← rSpeed rFlowIex f.toRHyd
  let l ← rLength.lookup f.lu
  let r ← rLength.lookup f.rbu
  let t ← rTimeIex.lookup f.tunits
  some ⟨f.Q, f.ebed, if f.psdm then some f.epor else none, f.Lv * l, v, f.rbv * r, f.nr, f.nz, t⟩

/-- Transport coefficients of an ion as `model_prep` converts them, Ion_Exchange_Model.R:1023-1035: `kL`, `Ds` and, for macroporous
resins, `Dp`. -/
def rIonTransport (psdm : Bool) (i : RIonRow) : Option (ℝ × ℝ × Option ℝ) := do
  let k ← rKl.lookup i.kLu
  let d ← rDs.lookup i.Dsu
  if psdm then (rDs.lookup i.Dpu).map fun p => (i.kL * k, i.Ds * d, some (i.Dp * p)) else some (i.kL * k, i.Ds * d, none)

/-! ### Measured points -/

/-- `gather` next to the repeated column of times, Ion_Exchange_Model.R:909-913, 942-946. -/
def rGatherCols (times : List ℝ) (cols : List (String × List ℝ)) : List (ℝ × String × ℝ) :=
  cols.flatMap fun c => List.zipWith (fun t x => (t, c.1, x)) times c.2

/-- `mass_converter_mgl`, Ion_Exchange_Model.R:1190-1212. A missing column is an error. -/
def rMglConvert (ions : List RIon) (cols : List (String × List ℝ)) : Option (List (String × List ℝ)) :=
  ions.foldlM (fun corr i => do
    let m ← rMglMult i
    let v ← cols.lookup i.name
    some (corr.map fun c => if c.1 = i.name then (c.1, v.map (· * m)) else c)) cols

/-- `paste(colnames(…), "effluent", sep = "_")`, Ion_Exchange_Model.R:907, 933. -/
def rSuffix (s : String) (cols : List (String × List ℝ)) : List (String × List ℝ) := cols.map fun c => (c.1 ++ "_" ++ s, c.2)

/-- Points of a table in units of concentration `ou`, with the times in hours: Ion_Exchange_Model.R:2118-2133 and 2378-2382 for the
influent (`sfx = "influent"`), 903-926, 2146-2160 and 2381 for the effluent. -/
def rIexPoints (ions : List RIon) (tunits ou sfx : String) (times : List ℝ) (cols : List (String × List ℝ)) :
    Option (List (ℝ × String × ℝ)) := do
  let c ← rMglConvert ions cols
  let m ← rMassIex.lookup ou
  some ((rGatherCols (times.map (rTableHours tunits)) (rSuffix sfx c)).map fun r => (r.1, r.2.1, r.2.2 / m))

/-- `cc0_conv_meq` for matching names, Ion_Exchange_Model.R:1145-1187: the first row of the influent in meq/L, by column. -/
def rC0 (ions : List RIon) (inf : List (String × List ℝ)) : Option (List ℝ) :=
  if rNameErrors ions inf = 0 then inf.mapM fun col => do
    let i ← ions.find? fun i => i.name = col.1
    let m ← rCc0Mult i
    let c ← col.2.head?
    some (c * m)
  else none

/-- Points of a table for "c/c0": `effluent_cc0` (Ion_Exchange_Model.R:1114-1137, 2284) and `HSDMIX_cc0` of the influent (1101-1111,
2285), with the times and names of the other branch (2428-2431, 2444-2447). `mapply` divides column `k` by entry `k`; with another number
of columns what comes out does not fit. -/
def rIexPointsCc0 (ions : List RIon) (tunits sfx : String) (inf : List (String × List ℝ)) (times : List ℝ)
    (cols : List (String × List ℝ)) : Option (List (ℝ × String × ℝ)) := do
  let _ ← rMglConvert ions cols
  let c ← rCinCorrect ions cols
  let c0 ← rC0 ions inf
  if c.length = c0.length then
    some (rGatherCols (times.map (rTableHours tunits)) (List.zipWith (fun a x => (a.1, a.2.map (· / x))) (rSuffix sfx c) c0))
  else none

/-- Points of the effluent: a table of one row gives a row of `NA`, which is not drawn, Ion_Exchange_Model.R:903-926, 1116-1135. -/
def rIexEff (ions : List RIon) (tunits ou : String) (inf : List (String × List ℝ)) (times : List ℝ)
    (cols : List (String × List ℝ)) : Option (List (ℝ × String × ℝ)) :=
  if 1 < times.length then
    if ou = "c/c0" then rIexPointsCc0 ions tunits "effluent" inf times cols else rIexPoints ions tunits ou "effluent" times cols
  else some []

/-- Points of the influent. -/
def rIexInf (ions : List RIon) (tunits ou : String) (times : List ℝ) (inf : List (String × List ℝ)) :
    Option (List (ℝ × String × ℝ)) :=
  if ou = "c/c0" then rIexPointsCc0 ions tunits "influent" inf times inf else rIexPoints ions tunits ou "influent" times inf

/-- What the plots are made of, Ion_Exchange_Model.R:2338-2387, 2426-2503: computed curves, points of the effluent and of the influent, by
the two boxes the user ticks. The times and values of the influent are set after those of the effluent in the same `tryCatch`
(2347-2348, 2354-2355, 2375-2376, 2381-2382), so an error of the effluent leaves them unset. An error of a part empties the plot
(2474-2479). -/
def rIexPlot {α : Type} (showEff showInf : Bool) (curves : α) (eff inf : Option (List (ℝ × String × ℝ))) :
    Option (α × List (ℝ × String × ℝ) × List (ℝ × String × ℝ)) := do
  let e ← if showEff then eff else some []
  let i ← if showInf then eff.bind fun _ => inf else some []
  some (curves, e, i)

/-! ### Saved results -/

/-- `HSDMIX_in_hours_meq_ng`, Ion_Exchange_Model.R:1078-1097, of the curves in meq/L, by column: without an ion `PFOA` the assignment of
its column is an error, which ends in `NULL` (2259-2265). More than one ion of that name is not considered. -/
def rMeqNg (ions : List RIon) (curves : List (String × List ℝ)) : Option (List (String × List ℝ)) :=
  match ions.filter fun i => i.name = "PFOA" with
  | [p] => some (curves.map fun c => if c.1 = "PFOA" then (c.1, c.2.map fun x => x * (p.mw / p.valence) / 1e-6) else c)
  | _ => none

/-- `HSDMIX_in_hours_mgl`, Ion_Exchange_Model.R:1056-1075, by column. -/
def rOutMgl (ions : List RIon) (curves : List (String × List ℝ)) : List (String × List ℝ) :=
  List.zipWith (fun i c => (c.1, c.2.map (· * rOutMult i))) ions curves

/-- The sheet `model results`, Ion_Exchange_Model.R:2532-2548: the long table spread again, in its order. Both choices take the names of
the columns from `allchemicals_hours_meq_ng` (2535, 2540); without it the file cannot be written. -/
def rIexSave (inputUnits : Bool) (ions : List RIon) (curves : List (String × List ℝ)) : Option (List (String × List ℝ)) :=
  (rMeqNg ions curves).map fun m => if inputUnits then m else rOutMgl ions curves

/-! ### The sheet `params` -/

/-- The observer that keeps the velocity in step with flow rate and diameter, Ion_Exchange_Model.R:1974-1983. -/
def rIexSettle (f : RIexForm) : RIexForm :=
  if f.linear then f else match rSpeed rFlowIex f.toRHyd with
    | some v => { f with Vv := v, vu := "cm/s" }
    | none => f

/-- `paramdf`, Ion_Exchange_Model.R:2519-2529, without the empty rows `kL` and `Ds`. -/
def rIexSheet (f : RIexForm) : RSpecs :=
  if f.psdm then
    [("Q", .num f.Q, some "meq/L"), ("EBED", .num f.ebed, none), ("EPOR", .num f.epor, none), ("L", .num f.Lv, some f.lu),
     ("v", .num f.Vv, some f.vu), ("rb", .num f.rbv, some f.rbu), ("nr", .num f.nr, none), ("nz", .num f.nz, none),
     ("time", .word f.tunits, some f.tunits)]
  else
    [("Q", .num f.Q, some "meq/L"), ("EBED", .num f.ebed, none), ("L", .num f.Lv, some f.lu),
     ("v", .num f.Vv, some f.vu), ("rb", .num f.rbv, some f.rbu), ("nr", .num f.nr, none), ("nz", .num f.nz, none),
     ("time", .word f.tunits, some f.tunits)]

/-- The form of a session that starts with the sheet `s`, from the form `f` of the user interface, before the observer of the velocity:
Ion_Exchange_Model.R:1830-1961. The value of `time` is a word, so the values are text, which `format` leaves as it is. -/
def rIexLoad (s : RSpecs) (f : RIexForm) : RIexForm :=
  let v := (s.lookup "v").isSome
  let q := (s.lookup "flrt").isSome && (s.lookup "diam").isSome
  { f with
    psdm := (s.lookup "EPOR").isSome
    linear := if v then true else if q then false else f.linear
    Vv := rSpecNum s "v" f.Vv
    vu := rSpecUnit s "v" f.vu
    Fv := if !v && q then rSpecNum s "flrt" f.Fv else f.Fv
    fu := if !v && q then rSpecUnit s "flrt" f.fu else f.fu
    Dv := if !v && q then rSpecNum s "diam" f.Dv else f.Dv
    du := if !v && q then rSpecUnit s "diam" f.du else f.du
    Q := rSpecNum s "Q" f.Q
    ebed := rSpecNum s "EBED" f.ebed
    epor := rSpecNum s "EPOR" f.epor
    Lv := rSpecNum s "L" f.Lv
    lu := rSpecUnit s "L" f.lu
    rbv := rSpecNum s "rb" f.rbv
    rbu := rSpecUnit s "rb" f.rbu
    nr := rSpecNum s "nr" f.nr
    nz := rSpecNum s "nz" f.nz
    tunits := rSpecUnit s "time" f.tunits }

/-! ### A session -/

/-- The files in `temp_file`, and the sheets of an uploaded workbook. -/
structure RIexFiles (T : Type) where
  params : RSpecs
  ions : T
  cin : T
  eff : T
structure RIexBook (T : Type) where
  params : Option RSpecs
  ions : Option T
  cin : Option T
  eff : Option T

/-- `process_files`, Ion_Exchange_Model.R:727-798; `noEff` is the table of one row of 729. -/
def rIexRead {T : Type} (noEff : T) (f : RIexFiles T) (b : RIexBook T) : RIexFiles T :=
  ⟨b.params.getD f.params, b.ions.getD f.ions, b.cin.getD f.cin, b.eff.getD noEff⟩

/-- The inputs on the screen: form, ion sheet, influent, and whether a cell of the two tables is empty. -/
structure RIexIn where
  form : RIexForm
  ions : List RIonRow
  times : List ℝ
  cols : List (String × List ℝ)
  na : Bool

/-- The results: `out` (one outlet curve per ion, in meq/L) and what `allchemicals_hours_meq` made of it. -/
structure RIexSess extends RIexIn where
  out : Option (List (List ℝ))
  shown : Option (List (String × List ℝ))

/-- `error_handling() != 1`, Ion_Exchange_Model.R:2185-2208. -/
def rIexPasses (s : RIexIn) : Bool := decide (rNameErrors (s.ions.map (·.toRIon)) s.cols = 0) && !s.na

/-- `allchemicals_hours_meq`, Ion_Exchange_Model.R:2242-2250: the first curves under the names of the ion sheet. More ions than curves are
an error. -/
def rIexLabel (ions : List RIonRow) (out : List (List ℝ)) : Option (List (String × List ℝ)) :=
  if ions.length ≤ out.length then some (List.zipWith (fun i c => (i.name, c)) ions out) else none

/-- What the user can do. -/
inductive RIexEv where
  | edit (s : RIexIn)
  | run
  | upload (s : RIexIn)

/-- One step. Run: Ion_Exchange_Model.R:2210-2224, an error of the solver leaves `out` as it was; the table of results is made anew at
every press of the button (2242). Upload: the session starts over (1808-1810) with what is in the files. -/
def rIexStep (solve : RIexIn → Except PyErr (List (List ℝ))) (s : RIexSess) : RIexEv → RIexSess
  | .edit i => { s with toRIexIn := i }
  | .run =>
    let out := if rIexPasses s.toRIexIn then
        match solve s.toRIexIn with
        | .ok r => some r
        | .error _ => s.out
      else s.out
    { s with out := out, shown := out.bind (rIexLabel s.ions) }
  | .upload i => ⟨i, none, none⟩

/-- A session with a sequence of actions. -/
def rIexExec (solve : RIexIn → Except PyErr (List (List ℝ))) (s : RIexSess) (evs : List RIexEv) : RIexSess :=
  evs.foldl (rIexStep solve) s

/-- The computed curves as they are drawn in units of concentration, Ion_Exchange_Model.R:2252-2258, 2378-2379: with the ion sheet as it
is now. -/
def rIexDrawn (s : RIexSess) (ou : String) : Option (List (String × List ℝ)) := do
  let c ← s.shown
  let m ← rMassIex.lookup ou
  some ((rOutMgl (s.ions.map (·.toRIon)) c).map fun a => (a.1, a.2.map (· / m)))

end
end WTM
