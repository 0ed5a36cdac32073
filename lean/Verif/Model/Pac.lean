import Mathlib.Analysis.SpecialFunctions.Pow.Real
import Mathlib.Analysis.SpecialFunctions.Trigonometric.Basic
import Verif.Model.Py
import Verif.Model.IexLoad
import Verif.Model.Tools

/-! Model of `Shiny-PAC/PAC.py`: unit tables, construction, derived rows, the rate equations, the
analytical solutions, and the dose and contact time studies.

NaN is `none`. The collocation matrices come from the file's copy of `recur_colloc_symm`
(PAC.py:254-313, line for line the function of colloc.py modelled in `Colloc.lean`) and are parameters
here. `viscosity` and `density` of water are not modelled: `dw` is a parameter. `solve_ivp` is a parameter.
Printing is not modelled. The tables are read in `PacRead.lean`. -/
set_option autoImplicit false
namespace WTM
noncomputable section
open BigOperators

/-! ### Unit tables -/

/-- `lpg`, PAC.py:36. -/
def pacLpg : ℝ := 3.785411784
/-- `cm_per_ft`, PAC.py:37. -/
def pacFt : ℝ := 2.54 * 12

/-- `time_convert`, PAC.py:43-47. -/
def pacTime : List (String × ℝ) :=
  [("min", 60), ("mins", 60), ("hr", 60 * 60), ("hrs", 60 * 60), ("day", 24 * 60 * 60),
   ("days", 24 * 60 * 60), ("s", 1), ("sec", 1), ("secs", 1)]
/-- `length_convert`, PAC.py:49-51. -/
def pacLength : List (String × ℝ) := [("cm", 1), ("m", 100), ("mm", 0.1), ("in", 2.54), ("ft", pacFt)]
/-- `volume_convert`, PAC.py:53-57. -/
def pacVolume : List (String × ℝ) :=
  [("ml", 1), ("cm3", 1), ("l", 1e3), ("gal", pacLpg * 1e3), ("ft3", pacFt ^ 3), ("m3", 100 ^ 3)]
/-- `flow_convert`, PAC.py:59-66. -/
def pacFlow : List (String × ℝ) :=
  [("ml/min", 1 / 60), ("ml/s", 1), ("gpm", pacLpg * 1e3 / 60), ("gal/min", pacLpg * 1e3 / 60),
   ("lpm", 1e3 / 60), ("l/min", 1e3 / 60), ("mgd", 1e6 * pacLpg * 1e3 / (24 * 60 * 60)),
   ("ft3/s", pacFt ^ 3 / 1), ("cfs", pacFt ^ 3 / 1), ("m3/s", 100 ^ 3 / 1)]
/-- `conc_convert`, PAC.py:68-71. -/
def pacConc : List (String × ℝ) :=
  [("ug/L", 1), ("ug", 1), ("ng/L", 1e-3), ("ng", 1e-3), ("mg/L", 1e3), ("mg", 1e3)]

/-- Subscripting one of these dictionaries. -/
def pacUnit (tab : List (String × ℝ)) (u : String) : Except PyErr ℝ :=
  match tab.lookup u with
  | some f => .ok f
  | none => .error .keyError

/-! ### Construction -/

/-- A row of a table: value (perhaps NaN) and units. -/
abbrev PacRow := Option ℝ × String

/-- The rows looked at by the constructor; `none` is a row that is not there. -/
structure PacIn where
  density : Option (Option ℝ) := none
  porosity : Option (Option ℝ) := none
  radius : Option PacRow := none
  length : Option PacRow := none
  format : Option String := none
  aspect : Option (Option ℝ) := none
  height : Option PacRow := none
  volume : Option PacRow := none
  flow : Option PacRow := none
  hrt : Option PacRow := none
  crt : Option PacRow := none
  dosage : Option (Option ℝ) := none

/-- Products and quotients with NaN. -/
def nmul (a b : Option ℝ) : Option ℝ := a.bind fun x => b.map fun y => x * y
def ndiv (a b : Option ℝ) : Option ℝ := a.bind fun x => b.map fun y => x / y
/-- `np.sqrt`: NaN below zero. -/
def nsqrt (a : Option ℝ) : Option ℝ := a.bind fun x => if x < 0 then none else some (Real.sqrt x)

/-- Value of a row times the factor of its (lowercased) units, e.g. PAC.py:469. -/
def PacRow.conv (tab : List (String × ℝ)) (r : PacRow) : Except PyErr (Option ℝ) := do
  let f ← pacUnit tab (lowerStr r.2)
  pure (nmul r.1 (some f))

/-- A row that may be missing: NaN, and one more error. E.g. PAC.py:457-463, 490-495, 543-555. -/
def convOr (tab : List (String × ℝ)) (r : Option PacRow) : Except PyErr (Option ℝ × ℤ) :=
  match r with
  | none => .ok (none, 1)
  | some r => do
    let x ← r.conv tab
    pure (x, 0)

/-- The same for a row without units. PAC.py:441-455, 561-566. -/
def plainOr (r : Option (Option ℝ)) : Option ℝ × ℤ :=
  match r with
  | none => (none, 1)
  | some x => (x, 0)

/-- Dimensions and the number of errors counted. -/
structure PacGeo where
  length : Option ℝ
  width : Option ℝ
  height : Option ℝ
  volume : Option ℝ
  errs : ℤ

/-- Reading `self.length`, which does not exist when the row was missing (467-472). -/
def getLen (l : Option (Option ℝ)) : Except PyErr (Option ℝ) :=
  match l with
  | none => .error .attributeError
  | some x => .ok x

/-- `self.width`, PAC.py:478-488. -/
def pacWidth (fmt : String) (aspect : Option (Option ℝ)) (l : Option (Option ℝ)) : Except PyErr (Option ℝ) :=
  if fmt = "square" then getLen l
  else if fmt = "rectangular" then do
    let x ← getLen l
    pure (ndiv x (aspect.getD (some 1)))
  else pure none

/-- Height from the volume, PAC.py:511-518. -/
def heightFrom (fmt : String) (g : PacGeo) : PacGeo :=
  if g.height = none then
    if nmul g.length g.width ≠ none then
      { g with errs := g.errs - 1, height := ndiv g.volume (nmul g.length g.width) }
    else if fmt = "circular" ∧ g.length ≠ none then
      { g with errs := g.errs - 1
               height := ndiv g.volume (nmul (some (Real.pi / 4)) (nmul g.length g.length)) }
    else g
  else g

/-- Length from the volume, PAC.py:519-527. Line 524 compares where it means to assign and does nothing. -/
def lengthFrom (fmt : String) (g : PacGeo) : PacGeo :=
  if g.length = none ∧ g.height ≠ none then
    if fmt = "circular" then
      { g with errs := g.errs - 1
               length := nsqrt (ndiv (nmul g.volume (some 4)) (nmul (some Real.pi) g.height)) }
    else
      { g with errs := g.errs - 1
               length := nsqrt (ndiv g.volume g.height)
               width := nsqrt (ndiv g.volume g.height) }
  else g

/-- `test`, PAC.py:501-504: a dimension is not known. -/
def geoOpen (fmt : String) (g : PacGeo) : Prop :=
  if fmt = "circular" then nmul g.length g.height = none
  else nmul (nmul g.length g.width) g.height = none

open Classical in
/-- Using a stated volume, PAC.py:497-527. `l` is the length as an attribute. The geometry returned keeps
the attribute's value, NaN standing also for the missing attribute. -/
def useVolume (fmt : String) (v : Option PacRow) (l : Option (Option ℝ)) (g : PacGeo) : Except PyErr PacGeo :=
  match v with
  | none => .ok g
  | some r => do
    let _ ← getLen l
    if geoOpen fmt g then
      let x ← r.conv pacVolume
      pure (lengthFrom fmt (heightFrom fmt { g with volume := x }))
    else pure g

/-- `self.volume` when not yet known, PAC.py:536-541. -/
def fillVolume (fmt : String) (l : Option (Option ℝ)) (g : PacGeo) : Except PyErr PacGeo :=
  if g.volume = none then do
    let _ ← getLen l
    if fmt = "circular" then
      pure { g with volume := nmul (ndiv (nmul g.height (some Real.pi)) (some 4)) (nmul g.length g.length) }
    else pure { g with volume := nmul (nmul g.length g.width) g.height }
  else pure g

/-- What the constructor stores. -/
structure PacBuilt where
  density : Option ℝ
  porosity : Option ℝ
  radius : Option ℝ
  geo : PacGeo
  flow : Option ℝ
  hrt : Option ℝ
  crt : Option ℝ
  dosage : Option ℝ
  errs : ℤ

/-- `self.length` as an attribute, PAC.py:467-472. -/
def lenAttr (r : Option PacRow) : Except PyErr (Option (Option ℝ) × ℤ) :=
  match r with
  | none => .ok (none, 1)
  | some r => do
    let x ← r.conv pacLength
    pure (some x, 0)

/-- `self.flow`, PAC.py:529-534: the missing case increments an attribute that does not exist. -/
def getFlow (r : Option PacRow) : Except PyErr (Option ℝ) :=
  match r with
  | none => .error .attributeError
  | some r => r.conv pacFlow

/-- The constructor's geometry, PAC.py:466-541. The flow row is read between the two uses of the volume;
both its failures are failures of the whole. -/
def pacGeo (i : PacIn) : Except PyErr (PacGeo × Option ℝ) := do
  let fmt := i.format.getD "square"
  let l ← lenAttr i.length
  let w ← pacWidth fmt i.aspect l.1
  let h ← convOr pacLength i.height
  let g ← useVolume fmt i.volume l.1 ⟨l.1.getD none, w, h.1, none, l.2 + h.2⟩
  let fl ← getFlow i.flow
  let g ← fillVolume fmt l.1 g
  pure (g, fl)

/-- `PAC_CFPSDM.__init__`, PAC.py:440-566, from the rows found (`PacRead.lean`). -/
def pacBuild (i : PacIn) : Except PyErr PacBuilt := do
  let d := plainOr i.density
  let p := plainOr i.porosity
  let r ← convOr pacLength i.radius
  let g ← pacGeo i
  let hrt ← convOr pacTime i.hrt
  let crt ← convOr pacTime i.crt
  let dose := plainOr i.dosage
  pure ⟨d.1, p.1, r.1, g.1, g.2, hrt.1, crt.1, dose.1,
    d.2 + p.2 + r.2 + g.1.errs + hrt.2 + crt.2 + dose.2⟩

/-! ### Compounds and derived rows -/

/-- The rows computed by `_update_values`. -/
structure PacDer where
  qe : ℝ
  Dgs : ℝ
  Dgp : ℝ
  Dg : ℝ
  St : ℝ
  Bi : ℝ
  Z : ℝ
  X : ℝ
  Ye : ℝ

/-- A column of `compounds_df`. -/
structure PacComp where
  K : ℝ
  xni : ℝ
  kf : ℝ
  Dp : ℝ
  Ds : ℝ
  C0 : ℝ
  units : String
  der : PacDer

/-- A constructed model with `m` compounds, all inputs known. -/
structure Pac (m : ℕ) where
  density : ℝ
  porosity : ℝ
  radius : ℝ
  dw : ℝ
  hrt : ℝ
  dosage : ℝ
  duration : ℝ
  epsilon : ℝ
  conv : Fin m → ℝ
  comp : Fin m → PacComp

variable {m nd : ℕ}

/-- Rows 611-623 of `_update_values` for one compound, given the new `epsilon` and the factor of its
units. -/
def pacDer (p : Pac m) (e cv : ℝ) (c : PacComp) : PacDer :=
  let qe := c.K * (c.C0 * cv) ^ c.xni
  let dgs := p.density * 1e3 * qe * (1 - e) / (e * (c.C0 * cv))
  let dgp := p.porosity * (1 - e) / e
  let dg := dgs + dgp
  { qe := qe
    Dgs := dgs
    Dgp := dgp
    Dg := dg
    St := c.kf * p.hrt * p.porosity * (1 - e) / (e * p.radius)
    Bi := p.radius * c.kf * (1 - e) / (e * (c.Ds * dg + c.Dp * dgp))
    Z := dgp * (c.Dp - c.Ds) * p.hrt / (p.radius * p.radius * dg)
    X := c.Ds * p.hrt / (p.radius * p.radius)
    Ye := qe + p.porosity / (p.density * 1e3) * c.C0 * cv }

/-- `self.epsilon`, PAC.py:604. -/
def pacEps (dosage dw : ℝ) : ℝ := 1 - dosage / (dw * 1e6)

/-- `_update_values`, PAC.py:603-627. -/
def Pac.update (p : Pac m) : Pac m :=
  let e := pacEps p.dosage p.dw
  { p with
    epsilon := e
    comp := fun i => { p.comp i with der := pacDer p e (p.conv i) (p.comp i) } }

/-! ### Rate equations -/

/-- State of `diffun`: loadings by radial point and compound, then dissolved concentrations. -/
abbrev PacY (nd m : ℕ) := (Fin (nd + 1) → Fin m → ℝ) × (Fin m → ℝ)

/-- `RHO`, PAC.py:835. -/
def Pac.rho (p : Pac m) : ℝ := p.density * 1000

/-- `Cp`, PAC.py:859-861. -/
def Pac.cp (p : Pac m) (y : PacY nd m) (k : Fin (nd + 1)) (i : Fin m) : ℝ :=
  let q := y.1 k i / p.rho / (p.comp i).K
  (if q < 0 then 0 else q) ^ (1 / (p.comp i).xni)

/-- `J`, PAC.py:864. -/
def Pac.flux (p : Pac m) (y : PacY nd m) (i : Fin m) : ℝ :=
  -(p.comp i).kf * (y.2 i - p.cp y (Fin.last nd) i)

/-- `dY_dt` before the boundary condition, PAC.py:870. -/
def Pac.rawY (p : Pac m) (B : Fin (nd + 1) → Fin (nd + 1) → ℝ) (y : PacY nd m) (k : Fin (nd + 1))
    (i : Fin m) : ℝ :=
  (p.porosity * ((p.comp i).Dp - (p.comp i).Ds) * ∑ l, B k l * p.cp y l i +
    (p.comp i).Ds * ∑ l, B k l * y.1 l i) / p.radius ^ 2

/-- `diffun`, PAC.py:849-883. -/
def Pac.rhs (p : Pac m) (B : Fin (nd + 1) → Fin (nd + 1) → ℝ) (W : Fin (nd + 1) → ℝ) (y : PacY nd m) :
    PacY nd m :=
  (fun k i => if k = Fin.last nd then
      -(p.flux y i / p.radius + ∑ l : Fin nd, W l.castSucc * p.rawY B y l.castSucc i) / W (Fin.last nd)
    else p.rawY B y k i,
   fun i => (1 - p.epsilon) / p.epsilon * p.flux y i * (3 / p.radius))

/-- The initial state, PAC.py:818-820. -/
def pacInit : PacY nd m := (fun _ _ => 0, fun _ => 1)

/-- `solve_ivp(f, (0, T), y0)`: the accepted times and states. The keyword `solver='BDF'` (888) is not the
one scipy uses to choose a method, so the default method runs; either way it is an external routine. -/
abbrev Ivp (nd m : ℕ) := (PacY nd m → PacY nd m) → ℝ → PacY nd m → List (ℝ × PacY nd m)

/-- `run_PAC_PSDM`, PAC.py:816-897: minutes and effluent in the units of `C0`. -/
def Pac.run (ivp : Ivp nd m) (B : Fin (nd + 1) → Fin (nd + 1) → ℝ) (W : Fin (nd + 1) → ℝ) (p : Pac m) :
    List (ℝ × (Fin m → ℝ)) :=
  (ivp (p.rhs B W) p.duration pacInit).map fun r => (r.1 / 60, fun i => (p.comp i).C0 * r.2.2 i)

/-- `R_run_PAC`, PAC.py:1128-1149, after construction: effluent in ug/L. -/
def Pac.runR (ivp : Ivp nd m) (B : Fin (nd + 1) → Fin (nd + 1) → ℝ) (W : Fin (nd + 1) → ℝ) (p : Pac m) :
    List (ℝ × (Fin m → ℝ)) :=
  (p.run ivp B W).map fun r => (r.1, fun i => r.2 i * p.conv i)

/-! ### Analytical solutions -/

/-- `a`, `b` of `get_analytical_sol`, PAC.py:631-633. -/
def Pac.filmA (p : Pac m) (i : Fin m) : ℝ :=
  1 / (p.epsilon * p.hrt) + 3 * (p.comp i).kf * (1 - p.epsilon) / (p.radius * p.epsilon)
def Pac.filmB (p : Pac m) (i : Fin m) : ℝ := (p.comp i).C0 / (p.epsilon * p.hrt)

/-- `get_analytical_sol`, PAC.py:629-640. -/
def Pac.filmSol (p : Pac m) (i : Fin m) (t : ℝ) : ℝ :=
  ((p.filmA i * (p.comp i).C0 - p.filmB i) / Real.exp (p.filmA i * t) + p.filmB i) / p.filmA i

/-- `f` of `find_qn`, PAC.py:648-649. -/
def qnFun (A x : ℝ) : ℝ := Real.tan x - 3 * x / (3 + A * x ^ 2)

/-- `guess` at the `N`-th pass of `find_qn`, PAC.py:646, 651-653. -/
def qnGuess (N : ℕ) : ℝ := Real.pi - 0.000001 + N * Real.pi

/-- `finiteSphere`, PAC.py:691-711, given the roots. `np.e ** x` is the exponential. -/
def finiteSphere (q : List ℝ) (D ra A t : ℝ) : ℝ :=
  1 - (q.map fun x => 6 * A * (A + 1) * Real.exp (-D * t * x ^ 2 / ra ^ 2) / (9 + 9 * A + x ^ 2 * A ^ 2)).sum

/-- `helfferich_film`, PAC.py:713-732. -/
def helfferich (t rb kL Vw Vx kAxw : ℝ) : ℝ :=
  1 - Real.exp ((kAxw * Vx / Vw + 1) * (-3 * kL / rb / kAxw * t))

/-- `A` and `depletion` of `get_analytical_sol2`, PAC.py:780-781. -/
def pacA (dosage density Kd : ℝ) : ℝ := 1 / (dosage / (density * 1e6)) / Kd
def pacDepl (A : ℝ) : ℝ := 1 / (1 + A)

/-- `F_h` for one compound, PAC.py:780-790. -/
def helfCurve (dosage density Kd rb kL t : ℝ) : ℝ :=
  1 - helfferich t rb kL 1 (dosage / (density * 1e6)) Kd * pacDepl (pacA dosage density Kd)

/-- `F` for one compound, PAC.py:780-784. -/
def crankCurve (dosage density Kd D ra : ℝ) (q : List ℝ) (t : ℝ) : ℝ :=
  1 - pacDepl (pacA dosage density Kd) * finiteSphere q D ra (pacA dosage density Kd) t

/-- `get_analytical_sol2` as far as the state goes, PAC.py:758-812. -/
def Pac.afterSol2 (p : Pac m) : Pac m := { ({ p with duration := 3000 * 60 } : Pac m) with duration := p.duration }

/-! ### Dose studies -/

/-- The loop of `run_multi_dosage`, PAC.py:911-915. -/
def multiLoop (ivp : Ivp nd m) (B : Fin (nd + 1) → Fin (nd + 1) → ℝ) (W : Fin (nd + 1) → ℝ) :
    Pac m → List ℝ → Pac m × List (ℝ × List (ℝ × (Fin m → ℝ)))
  | p, [] => (p, [])
  | p, d :: ds =>
    let p' := ({ p with dosage := d } : Pac m).update
    let r := multiLoop ivp B W p' ds
    (r.1, (d, p'.run ivp B W) :: r.2)

/-- `run_multi_dosage`, PAC.py:900-922: the model afterwards and the results in order of the doses. (The
dictionary keeps one entry for repeated doses.) `_run_multi_doseR` (953-999) runs the same loop. -/
def Pac.multiDose (ivp : Ivp nd m) (B : Fin (nd + 1) → Fin (nd + 1) → ℝ) (W : Fin (nd + 1) → ℝ)
    (p : Pac m) (ds : List ℝ) : Pac m × List (ℝ × List (ℝ × (Fin m → ℝ))) :=
  let r := multiLoop ivp B W { p with duration := 1000 * 60 } ds
  ({ r.1 with dosage := p.dosage, duration := p.duration }, r.2)

/-- `multi_dosage_analyzer` at one contact time, PAC.py:939-949 (976-986). -/
def Pac.analyze (p : Pac m) (data : List (ℝ × List (ℝ × (Fin m → ℝ)))) (t : ℝ) (i : Fin m) : List (ℝ × ℝ) :=
  data.map fun d => (d.1, npInterp (d.2.map fun r => (r.1, r.2 i)) t * p.conv i)

open Classical in
/-- One cell of the contact time tables, PAC.py:1045-1051 (1109-1117). -/
def hrtCell (cv target : ℝ) (data : List (ℝ × ℝ)) : Option ℝ :=
  if ∃ r ∈ data, r.2 * cv ≤ target then
    some (npInterp ((data.map fun r => (r.2 * cv, r.1)).reverse) target)
  else none

/-- Pass of the loops of `HRT_calculator_for_dosage`, PAC.py:1036-1038; without `c0` those of
`_R_HRT_calculator_for_dosage`, 1102-1103. -/
def Pac.trial (p : Pac m) (c0 : Option ℝ) (d : ℝ) : Pac m :=
  ({ p with dosage := d
            comp := fun i => { p.comp i with C0 := c0.getD (p.comp i).C0 } } : Pac m).update

/-- The loops, PAC.py:1032-1051 and 1098-1117. -/
def hrtLoop (ivp : Ivp nd m) (B : Fin (nd + 1) → Fin (nd + 1) → ℝ) (W : Fin (nd + 1) → ℝ) (target : ℝ) :
    Pac m → List (Option ℝ × ℝ) → Pac m × List ((Option ℝ × ℝ) × (Fin m → Option ℝ))
  | p, [] => (p, [])
  | p, x :: xs =>
    let p' := p.trial x.1 x.2
    let cells := fun i => hrtCell (p'.conv i) target ((p'.run ivp B W).map fun r => (r.1, r.2 i))
    let r := hrtLoop ivp B W target p' xs
    (r.1, (x, cells) :: r.2)

/-- Both contact time calculators, PAC.py:1002-1060 (`simple = false`) and 1063-1125 (`simple = true`, in
which `'same'` leaves the factors alone). Trials are the pairs in loop order. The model afterwards, and the
table or the exception; an exception leaves the duration at 3000 minutes. -/
def Pac.hrtStudy (ivp : Ivp nd m) (B : Fin (nd + 1) → Fin (nd + 1) → ℝ) (W : Fin (nd + 1) → ℝ) (simple : Bool)
    (p : Pac m) (target : ℝ) (tu cu : String) (trials : List (Option ℝ × ℝ)) :
    Pac m × Except PyErr (List ((Option ℝ × ℝ) × (Fin m → Option ℝ))) :=
  let p1 : Pac m := { p with duration := 3000 * 60 }
  let same := lowerStr cu = "same"
  let u := if same then lowerStr tu else lowerStr cu
  match pacUnit pacConc (lowerStr tu), pacUnit pacConc u with
  | .error e, _ => (p1, .error e)
  | _, .error e => (p1, .error e)
  | .ok ft, .ok fc =>
    let p2 : Pac m :=
      { p1 with conv := if same ∧ simple then p.conv else fun _ => fc
                comp := fun i => { p.comp i with units := u } }
    let r := hrtLoop ivp B W (target * ft) p2 trials
    ({ r.1 with comp := p.comp, duration := p.duration, conv := p.conv }, .ok r.2)

end
end WTM
