import Verif.Model.DsFit
import Verif.Model.GacInput

/-! Functions over all compounds of a column and older readers, without plots and files: `analyze_all` and
`analyze_all_ds`, PSDM_tools.py:649-758, `calc_Jac`, PSDM_functions.py:813-833, `process_raw_data` and
`process_raw_data_new`, PSDM_functions.py:318-453.

A pool of processes gives every process lists of compounds to run one after the other on a copy of the object
(`multiprocessing.Pool.starmap_async`): the parameter `chunks`. If several raise, the first one in order is taken.
Whether chained assignments reach the table depends on the pandas version: `thru`. -/
set_option autoImplicit false
namespace WTM
noncomputable section

/-! ### `calc_Jac` -/

/-- `calc_Jac`, PSDM_functions.py:813-833: row `j` of `Jac` is the change of `ff` when unknown `j` is raised by `hh`,
divided by `hh`; the transposed table is returned. -/
def calcJac {ι : Type} [DecidableEq ι] (ff : (ι → ℝ) → ι → ℝ) (u0 : ι → ℝ) (hh : ℝ) (i j : ι) : ℝ :=
  (ff (Function.update u0 j (u0 j + hh)) i - ff u0 i) / hh

/-! ### `analyze_all` -/

/-- One list of calls of `run_psdm_kfit` on one copy of the object, PSDM_tools.py:652. -/
def chunkFits (S : Sim) : List String → GacObj → Except PyErr (List (String × KfitOut))
  | [], _ => .ok []
  | c :: rest, o =>
    match runKfit S o c with
    | (.error e, _) => .error e
    | (.ok out, o') => (chunkFits S rest o').map ((c, out) :: ·)

/-- All lists, each on its own copy, PSDM_tools.py:650-656. -/
def poolFits (S : Sim) (o : GacObj) : List (List String) → Except PyErr (List (String × KfitOut))
  | [] => .ok []
  | ch :: rest =>
    match chunkFits S ch o with
    | .error e => .error e
    | .ok rs => (poolFits S o rest).map (rs ++ ·)

/-- `PSDM_obj.k_data[comp]['K'] = k`, `PSDM_obj.k_data[comp]['1/n'] = xn`, PSDM_tools.py:660-661. -/
def storeFit (thru : Bool) (o : GacObj) (c : String) (k xn : ℝ) : GacObj :=
  if thru then { o with core := { o.core with kData := o.core.kData.set c k xn } } else o

/-- The plot of the errors, PSDM_tools.py:666-682: `contourf` wants two rows and two columns; `draw` stands for the
rest, `find_minimum_df` included. -/
def plotErrors (draw : List (ℝ × ℝ × ℝ) → Except PyErr Unit) (o : GacObj) (out : KfitOut) : Except PyErr Unit :=
  if o.testRange.length < 2 ∨ o.xnRange.length < 2 then .error .typeError else draw out.ssqs

/-- The loop over results, PSDM_tools.py:658-702. In the optimising branch of `run_psdm_kfit` the fifth value is the
dictionary of `run_psdm` (PSDM.py:1709), which has no `index` (691). -/
def analyzeLoop (thru : Bool) (draw : List (ℝ × ℝ × ℝ) → Except PyErr Unit) :
    List (String × KfitOut) → GacObj → Except PyErr Unit × GacObj
  | [], o => (.ok (), o)
  | (c, out) :: rest, o =>
    let o1 := storeFit thru o c out.k out.xn
    match (if o.optimize then plotErrors draw o out else .ok ()) with
    | .error e => (.error e, o1)
    | .ok _ =>
      if o.optimize ∧ ¬ oneTrial o then (.error .attributeError, o1)
      else analyzeLoop thru draw rest o1

/-- `analyze_all`, PSDM_tools.py:649-702. -/
def analyzeAll (S : Sim) (thru : Bool) (draw : List (ℝ × ℝ × ℝ) → Except PyErr Unit) (chunks : List (List String))
    (o : GacObj) : Except PyErr Unit × GacObj :=
  match poolFits S o chunks with
  | .error e => (.error e, o)
  | .ok rs => analyzeLoop thru draw rs o

/-! ### `analyze_all_ds` -/

/-- As `chunkFits`, for `run_psdm_dsfit`, PSDM_tools.py:707. -/
def chunkDs (S : Sim) (inp : DsIn) : List String → GacObj → Except PyErr (List (String × DsOut))
  | [], _ => .ok []
  | c :: rest, o =>
    match dsFit S inp o c with
    | (.error e, _) => .error e
    | (.ok out, o') => (chunkDs S inp rest o').map ((c, out) :: ·)

/-- As `poolFits`, PSDM_tools.py:705-709, 715. -/
def poolDs (S : Sim) (inp : DsIn) (o : GacObj) : List (List String) → Except PyErr (List (String × DsOut))
  | [] => .ok []
  | ch :: rest =>
    match chunkDs S inp ch o with
    | .error e => .error e
    | .ok rs => (poolDs S inp o rest).map (rs ++ ·)

/-- Rows `ds` and `base_ds` of `k_data`. -/
abbrev DsRows := String → ℝ × ℝ

/-- `min_val.index[0]`, PSDM_tools.py:729-731: the first factor with the least error. -/
def firstLeast (rows : List (ℝ × ℝ)) : Option ℝ :=
  open Classical in (rows.find? fun r => decide (∀ r' ∈ rows, r.2 ≤ r'.2)).map (·.1)

/-- The loop over results, PSDM_tools.py:716-758, with the coefficients printed in the titles (751): without
`optimize_flag` the factor to print was never set. -/
def dsRowsLoop (thru optimize : Bool) : List (String × DsOut) → DsRows → List (String × ℝ) →
    Except PyErr (List (String × ℝ)) × DsRows
  | [], t, titles => (.ok titles, t)
  | (c, out) :: rest, t, titles =>
    let t1 : DsRows := if thru then fun c' => if c' = c then (out.ds, out.base) else t c' else t
    if optimize then
      match firstLeast out.ssqs with
      | none => (.error .indexError, t1)
      | some f => dsRowsLoop thru optimize rest t1 (titles ++ [(c, f * out.base)])
    else (.error .unboundLocal, t1)

/-- `analyze_all_ds`, PSDM_tools.py:704-758: the two new rows start as copies of row `K` (712-713). -/
def analyzeDs (S : Sim) (inp : DsIn) (thru : Bool) (chunks : List (List String)) (o : GacObj) :
    Except PyErr (List (String × ℝ)) × DsRows :=
  let t0 : DsRows := fun c => ((o.core.kData c).K, (o.core.kData c).K)
  match poolDs S inp o chunks with
  | .error e => (.error e, t0)
  | .ok rs => dsRowsLoop thru o.optimize rs t0 []

/-! ### Older readers -/

/-- A row of the file of measurements: time, type, compound, concentration. -/
structure CsvRow where
  time : ℝ
  type : String
  comp : String
  conc : ℝ

open Classical in
/-- Measurements of one cell, in order. -/
def cellRows (rows : List CsvRow) (ty c : String) (t : ℝ) : List ℝ :=
  (rows.filter fun r => decide (r.type = ty ∧ r.comp = c ∧ r.time = t)).map (·.conc)

/-- `pivot_table`, PSDM_functions.py:348: the mean, or NaN. -/
def pivotMean (l : List ℝ) : Option ℝ := if l.length = 0 then none else some (l.sum / l.length)

/-- `process_raw_data`, PSDM_functions.py:347-352, one cell of the table: NaN is replaced by 0 (349), the limit applied
(350), and zeros of the types with `Influent` in their name raised (344, 352). -/
def rawCell (thru : Bool) (lim : ℝ) (isInfl : String → Bool) (rows : List CsvRow) (ty c : String) (t : ℝ) : ℝ :=
  let x := (pivotMean (cellRows rows ty c t)).getD 0
  let x := if x ≤ lim then 0 else x
  if thru ∧ isInfl ty ∧ x = 0 then 0.001 else x

/-- `a[a <= rept_lim] = 0.`, PSDM_functions.py:392. -/
def Stream.limitLe (v : Stream) (lim : ℝ) : Stream := fun c t => (v c t).map fun x => if x ≤ lim then 0 else x

/-- Filling by chained assignment, PSDM_functions.py:424-433. -/
def Stream.fillThru (thru : Bool) (comps : List String) (idx : List ℝ) (last : ℝ) (v : Stream) : Stream :=
  if thru then v.fill comps idx last else v.start idx last

/-- The data part of `process_raw_data_new`, PSDM_functions.py:390-453. -/
def rawNew (thru : Bool) (lim : ℝ) (s : RawSheet) : List ℝ × Stream × Stream :=
  let vi := s.infl.limitLe lim
  let ve := s.effl.limitLe lim
  let last := max 0 ((vi.full s.comps s.idx).getLastD 0)
  (rawIndex s.idx, (vi.fillThru thru s.comps s.idx last).noZero thru, ve.fillThru thru s.comps s.idx last)

/-- The data part of `process_input_file` in the copy of the carbon web application,
Shiny-GAC/psdm/PSDM_functions.py:201-266: filling by chained assignment (245, 249). -/
def fileDataShiny (thru : Bool) (lim : ℝ) (s : RawSheet) : List ℝ × Stream × Stream :=
  let vi := s.infl.limit lim
  let ve := s.effl.limit lim
  let last := max 0 ((vi.full s.comps s.idx).getLastD 0)
  (rawIndex s.idx, (vi.fillThru thru s.comps s.idx last).noZero thru, ve.fillThru thru s.comps s.idx last)

end
end WTM
