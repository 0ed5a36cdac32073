import Verif.Model.Py
import Verif.Model.IexLoad

/-! `isotherm_fit`, PSDM_tools.py:321-501, without drawing. Missing cells are `none`. `curve_fit` is a parameter. A zero
mass (an infinite loading) and negative concentrations are not modelled. -/
set_option autoImplicit false
namespace WTM
noncomputable section

/-- `langmuir`, PSDM_tools.py:342-359. -/
def isoLangmuir (c K N : ℝ) : ℝ := K * c * N / (1 + K * c)

/-- `freundlich`, PSDM_tools.py:361-381. -/
def isoFreundlich (c k invN : ℝ) : ℝ := k * c ^ invN

/-- `RedlichPeterson`, PSDM_tools.py:383-384. -/
def isoRedlich (c A B M : ℝ) : ℝ := A * c / (B + c ^ M)

/-- The caller's table: columns `C0`, `Ce`, `mass` by row and the column `q`, if there is one. -/
structure IsoTab where
  rows : List (Option ℝ × Option ℝ × Option ℝ)
  q : Option (List (Option ℝ))

/-- `(data['C0']-data['Ce'])/data['mass']`, PSDM_tools.py:390. -/
def isoLoad (r : Option ℝ × Option ℝ × Option ℝ) : Option ℝ :=
  match r with
  | (some c0, some ce, some m) => some ((c0 - ce) / m)
  | _ => none

/-- PSDM_tools.py:389-390: the table is changed in place. -/
def isoFill (t : IsoTab) : IsoTab :=
  match t.q with
  | some _ => t
  | none => { t with q := some (t.rows.map isoLoad) }

/-- `xdata`, `ydata`, PSDM_tools.py:394-398: rows without `q` are dropped, those without `Ce` are not. -/
def isoPoints (t : IsoTab) : List (Option ℝ × ℝ) :=
  ((t.rows.map fun r => r.2.1).zip (t.q.getD [])).filterMap fun p => p.2.map fun y => (p.1, y)

/-- `scipy.optimize.curve_fit` with lower bounds 0: model, number of parameters, points; parameters and covariance. -/
abbrev CurveFit := (ℝ → List ℝ → ℝ) → ℕ → List (ℝ × ℝ) → Except PyErr (List ℝ × (ℕ → ℕ → ℝ))

/-- The three models as `curve_fit` calls them. -/
def isoModel (name : String) : Option ((ℝ → List ℝ → ℝ) × List String) :=
  if lowerStr name = "freundlich" then some (fun c p => isoFreundlich c (p.getD 0 0) (p.getD 1 0), ["K", "1/n"])
  else if lowerStr name = "langmuir" then some (fun c p => isoLangmuir c (p.getD 0 0) (p.getD 1 0), ["KL", "qm"])
  else if lowerStr name = "redlichpeterson" then
    some (fun c p => isoRedlich c (p.getD 0 0) (p.getD 1 0) (p.getD 2 0), ["A", "B", "M"])
  else none

/-- The points if every `Ce` is there; `curve_fit` raises `ValueError` otherwise. -/
def isoFinite : List (Option ℝ × ℝ) → Option (List (ℝ × ℝ))
  | [] => some []
  | (none, _) :: _ => none
  | (some x, y) :: rest => (isoFinite rest).map ((x, y) :: ·)

/-- The table returned: name of the parameter, value, error (PSDM_tools.py:413-416). -/
def isoRows (names : List String) (popt : List ℝ) (cov : ℕ → ℕ → ℝ) : List (String × ℝ × ℝ) :=
  (List.range names.length).map fun i => (names.getD i "", popt.getD i 0, Real.sqrt (cov i i))

/-- `isotherm_fit`, PSDM_tools.py:321-501: what it returns or raises, and the caller's table after. An unknown name
prints a warning and fails at `print(tmp_data)`, 500 (at 461 if `plot`). -/
def isoFit (fit : CurveFit) (name : String) (t : IsoTab) : Except PyErr (List (String × ℝ × ℝ)) × IsoTab :=
  let t' := isoFill t
  if isoPoints t' = [] then (.error .valueError, t')
  else match isoModel name with
    | none => (.error .unboundLocal, t')
    | some (f, names) =>
      match isoFinite (isoPoints t') with
      | none => (.error .valueError, t')
      | some pts =>
        match fit f names.length pts with
        | .error e => (.error e, t')
        | .ok (popt, cov) => (.ok (isoRows names popt cov), t')

/-- `s_err`, PSDM_tools.py:465-473. -/
def isoErr (pts : List (ℝ × ℝ)) (f : ℝ → ℝ) (m : ℕ) : ℝ :=
  Real.sqrt ((pts.map fun p => (p.2 - f p.1) ^ 2).sum / (pts.length - m))

/-- `np.mean`, PSDM_tools.py:475. -/
def isoMean (pts : List (ℝ × ℝ)) : ℝ := (pts.map Prod.fst).sum / pts.length

/-- `(xdata_plot-np.mean(xdata))**2/np.sum((xdata-np.mean(xdata))**2)`, PSDM_tools.py:475-478. -/
def isoLever (pts : List (ℝ × ℝ)) (x : ℝ) : ℝ :=
  (x - isoMean pts) ^ 2 / (pts.map fun p => (p.1 - isoMean pts) ^ 2).sum

/-- Half width of the confidence band, PSDM_tools.py:475-476; `t` is Student's quantile. -/
def isoCi (t : ℝ) (pts : List (ℝ × ℝ)) (f : ℝ → ℝ) (m : ℕ) (x : ℝ) : ℝ :=
  t * isoErr pts f m * Real.sqrt (1 / pts.length + isoLever pts x)

/-- Half width of the prediction band, PSDM_tools.py:477-478. -/
def isoPi (t : ℝ) (pts : List (ℝ × ℝ)) (f : ℝ → ℝ) (m : ℕ) (x : ℝ) : ℝ :=
  t * isoErr pts f m * Real.sqrt (1 + 1 / pts.length + isoLever pts x)

end
end WTM
