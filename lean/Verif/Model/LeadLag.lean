import Mathlib.Data.Real.Basic
import Mathlib.Algebra.Order.Floor.Ring
import Mathlib.Algebra.BigOperators.Group.Finset.Basic
import Verif.Model.IexLoad

/-! lead_lag_class.py: lead-lag systems of carbon and resin vessels. A vessel is a parameter `F`: the map from its
influent on the quarter-day grid to its effluent there. Reading spreadsheets and printing are left out;
`conv_iex_u` is in `IexLoad`. -/
set_option autoImplicit false
namespace WTM
noncomputable section

/-! ### `run_LL` -/

/-- What `run_LL` runs or returns. -/
inductive LLRun
  | errorDict | gac | ix | ixGac | gacIx | nothing
  deriving DecidableEq

/-- `run_LL`, lead_lag_class.py:368-389. `kw` says whether `compounds` is among the keywords: it is then passed twice
to the mixed runners, a `TypeError`. -/
def runLL (error kw : Bool) (type : String) : Except PyErr LLRun :=
  if error then .ok .errorDict
  else if lowerStr type = "gac" ∨ lowerStr type = "gac-gac" then .ok .gac
  else if lowerStr type = "ix" ∨ lowerStr type = "ix-ix" ∨ lowerStr type = "iex" ∨ lowerStr type = "iex-iex" then .ok .ix
  else if lowerStr type = "ix-gac" ∨ lowerStr type = "iex-gac" then
    if kw then .error .typeError else .ok .ixGac
  else if lowerStr type = "gac-ix" ∨ lowerStr type = "iex-gac" then
    if kw then .error .typeError else .ok .gacIx
  else .ok .nothing

/-! ### `add_resin_selectivity` -/

/-- `adjustment_factor`, lead_lag_class.py:268-269. -/
structure SelAdjust where
  lo : ℝ
  hi : ℝ
  early : ℝ
  late : ℝ

open Classical in
/-- lead_lag_class.py:345-349 and 355-359. -/
def SelAdjust.apply (a : SelAdjust) (k : ℝ) : ℝ :=
  if a.lo ≤ k ∧ k < a.hi then k * a.early else if a.hi < k then k * a.late else k

/-- One row of `self.ions`. -/
structure ResinIon where
  name : String
  mw : ℝ
  k : ℝ
  valence : ℝ
  units : String

/-- `self.avail_ions` and `self.ions`. -/
structure ResinTable where
  avail : List String
  ions : List ResinIon

/-- `add_resin_selectivity`, lead_lag_class.py:341-361. -/
def ResinTable.add (t : ResinTable) (a : SelAdjust) (mw k : ℝ) (comp : String) : ResinTable :=
  if comp ∉ t.avail then
    { avail := t.avail ++ [comp], ions := t.ions ++ [⟨comp, mw, a.apply k, 1, "ng"⟩] }
  else
    { t with ions := t.ions.map fun i => if i.name = comp then { i with k := a.apply k * 1 } else i }

/-! ### The shared flow rate -/

/-- `flow_converter`, lead_lag_class.py:35-50: mL/min in one unit. -/
def flowConverter : List (String × ℝ) :=
  [("ml/min", 1), ("mgd", 1e6 * (3.785411784 * 1e3) / (24 * 60)), ("gpm", 3.785411784 * 1e3),
   ("gal/min", 3.785411784 * 1e3), ("lps", 1e3 * 60), ("l/s", 1e3 * 60), ("m3ps", 1e6 * 60), ("m3/s", 1e6 * 60),
   ("l/min", 1e3)]

/-- An element of a list or tuple. -/
inductive FlowItem
  | num (x : ℝ)
  | text (s : String)

/-- `shared_flowrate`. -/
inductive FlowArg
  | text (s : String)
  | num (x : ℝ)
  | list (l : List FlowItem)
  | tuple (l : List FlowItem)

/-- A cell of the `value` or `units` column. -/
inductive FlowCell
  | item (x : FlowItem)
  | list (l : List FlowItem)

/-- The flow row of the resin parameters and the carbon flow in mL/min. -/
structure FlowState where
  ixValue : FlowCell
  ixUnits : FlowCell
  gac : ℝ

/-- lead_lag_class.py:640-665 and 780-805. `thru` says whether `df.loc[i]['value'] = x` reaches the table; for a
table of mixed types `df.loc[i]` is a copy and it does not. -/
def sharedFlow (thru : Bool) (arg : FlowArg) (s : FlowState) : Except PyErr FlowState :=
  let write (v u : FlowCell) : FlowState := if thru then { s with ixValue := v, ixUnits := u } else s
  match arg with
  | .num _ => .error .typeError
  | .tuple l =>
    match l with
    | [v, u] => .ok (write (.item v) (.item u))
    | _ => .ok s
  | .list l => .ok (write (.list l) (.item (.text "ml/min")))
  | .text t =>
    if t = "use gac" then .ok (write (.item (.num s.gac)) (.item (.text "ml/min")))
    else if t = "use ix" then
      match s.ixValue, s.ixUnits with
      | .item (.num v), .item (.text u) =>
        match flowConverter.lookup u with
        | some f => .ok { s with gac := v * f }
        | none => .error .keyError
      | _, _ => .error .keyError
    else .ok s

/-! ### Two like vessels -/

/-- `run_duration`, lead_lag_class.py:415 and 539. -/
def llDuration (s : ℕ) : ℕ := ⌊(s : ℝ) * 2.1⌋₊

/-- Number of grid times `0, 0.25, ...` below `run_duration`, lead_lag_class.py:421 and 540. -/
def llPoints (s : ℕ) : ℕ := 4 * llDuration s

/-- `data_store`: the two values and the two curves. -/
structure LLOut (V : Type) where
  mid : V
  midResults : List V
  effluent : V
  effluentResults : List V

/-- Influent of pass `i` of the carbon loop, lead_lag_class.py:454-467: grid points before `swap_days`. -/
def gacFeed (s i : ℕ) (mean : ℝ) (res : ℕ → ℝ) (k : ℕ) : ℝ :=
  if k < 4 * s then (if i = 0 then res k else res (4 * s + k)) else mean

/-- The results of pass `i` of the loop, lead_lag_class.py:451, 453-485; pass 0 is preceded by a run on raw water. -/
def gacPass (F : (ℕ → ℝ) → ℕ → ℝ) (s : ℕ) (mean : ℝ) : ℕ → ℕ → ℝ
  | 0 => F (gacFeed s 0 mean (F fun _ => mean))
  | i + 1 => F (gacFeed s (i + 1) mean (gacPass F s mean i))

/-- `run_LL_gac` for one compound, lead_lag_class.py:393-509. The results reach the last grid time and `interp1d`
refuses times beyond. -/
def runLLGac (F : (ℕ → ℝ) → ℕ → ℝ) (s loops : ℕ) (mean : ℝ) : Except PyErr (LLOut ℝ) :=
  let res := gacPass F s mean loops
  if 8 * s < llPoints s then
    .ok { mid := res (8 * s)
          effluentResults := (List.range (4 * s)).map res
          effluent := res (4 * s)
          midResults := (List.range (4 * s)).map fun k => res (4 * s + k) }
  else .error .valueError

/-- Rows `lo .. hi` (both included) of a table of `n` rows. -/
def rowsIn {V : Type} (n lo hi : ℕ) (res : ℕ → V) : List V :=
  ((List.range n).filter fun k => lo ≤ k ∧ k ≤ hi).map res

/-- The influent table of pass `i`, lead_lag_class.py:578-587: the values replace the rows up to and including
`swap_days`, whose number must match. -/
def ixFeed {V : Type} (s i : ℕ) (raw : V) (res : ℕ → V) : Except PyErr (ℕ → V) :=
  let n := llPoints s
  let new := if i = 0 then rowsIn n 0 (4 * s) res else rowsIn n (4 * s) (8 * s) res
  if new.length = (rowsIn n 0 (4 * s) res).length then
    .ok fun k => if k ≤ 4 * s then new.getD k raw else raw
  else .error .valueError

/-- Passes `i, i + 1, ..., i + m - 1`, lead_lag_class.py:577-593; returns the last influent table and the results.
`F` includes `conv_iex_u`. -/
def ixPasses {V : Type} (F : (ℕ → V) → ℕ → V) (s : ℕ) (raw : V) : ℕ → ℕ → (ℕ → V) → (ℕ → V) →
    Except PyErr ((ℕ → V) × (ℕ → V))
  | _, 0, cin, res => .ok (cin, res)
  | i, m + 1, _, res =>
    match ixFeed s i raw res with
    | .error e => .error e
    | .ok cin' => ixPasses F s raw (i + 1) m cin' (F cin')

/-- `run_LL_ix`, lead_lag_class.py:512-609: the result and the influent table left in the object. -/
def runLLIx {V : Type} (F : (ℕ → V) → ℕ → V) (s loops : ℕ) (raw : V) : Except PyErr (LLOut V × (ℕ → V)) :=
  match ixPasses F s raw 0 (loops + 1) (fun _ => raw) (F fun _ => raw) with
  | .error e => .error e
  | .ok (cin, res) =>
    if 8 * s < llPoints s then
      .ok ({ mid := res (8 * s)
             effluentResults := rowsIn (llPoints s) 0 (4 * s) res
             effluent := res (4 * s)
             midResults := rowsIn (llPoints s) (4 * s) (8 * s) res }, cin)
    else .error .keyError

/-! ### Mixed vessels -/

/-- Influent of the resin lag vessel for one compound, lead_lag_class.py:695-736: `mid` holds the simulated carbon
effluent of the compounds asked for, zeros for the other shared ones. -/
def lagIx (asked : List String) (gacEff : String → ℕ → ℝ) (comp : String) (k : ℕ) : ℝ :=
  floorPos (if comp ∈ asked then gacEff comp k else 0)

/-- Influent of the carbon lag vessel, lead_lag_class.py:856-866. -/
def lagGac (ixEff : String → ℕ → ℝ) (comp : String) (k : ℕ) : ℝ :=
  if ixEff comp k ≤ 1e-8 then 1e-8 else ixEff comp k

/-- Influent of the resin lead vessel of `run_LL_ix_gac` beyond the data, lead_lag_class.py:830-842: the mean of the
`n` rows of the influent table the object holds. -/
def leadIxMean (n : ℕ) (cin : ℕ → ℝ) : ℝ := floorPos ((∑ k ∈ Finset.range n, cin k) / n)

end
end WTM
