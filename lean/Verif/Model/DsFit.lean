import Verif.Model.GacRunAll
import Verif.Model.Tools

/-! The fit of the surface diffusion coefficient, `run_psdm_dsfit`, PSDM.py:1764-1824, and
`predict_full_scale_ds`, PSDM_tools.py:511-643, without plots and files. The simulation is the parameter `Sim` of
Model/GacState.lean. The change of the last time of the data in place (PSDM_tools.py:544-547) is left out: the fit
reads the stored data. -/
set_option autoImplicit false
namespace WTM
noncomputable section

/-- What the fit reads besides the object of Model/GacState.lean: `mass_mul`, and the rows `MolarVol` and `MW` of
`k_data`, if it has them. The table built by `__init__` (PSDM.py:292) has not; one given by the caller may. -/
structure DsIn where
  massMul : ℝ
  props : String → Option (ℝ × ℝ)

/-- `cb0`, PSDM.py:1790. -/
def dsCb0 (inp : DsIn) (mw : ℝ) (o : GacObj) (c : String) : ℝ :=
  (((o.core.data.infl c).getD []).headD (0, 0)).2 * inp.massMul / mw

/-- `ds_base`, PSDM.py:1792-1793. -/
def dsBase (o : GacObj) (c : String) (molVol cb0 : ℝ) : ℝ :=
  o.core.geom.epor * difl o.vw molVol * cb0 * o.core.geom.psdfr /
    (1e3 * o.core.geom.rhop * cb0 ^ (o.core.kData c).xn)

/-- `self.mass_transfer.loc['ds', compound] = d`, PSDM.py:1806. -/
def setDs (o : GacObj) (c : String) (d : ℝ) : GacObj :=
  { o with core := { o.core with mt := fun c' => if c' = c then { o.core.mt c with ds := d } else o.core.mt c' } }

/-- `tests`, PSDM.py:1796. -/
def dsTests : List ℝ := linspaceN 1e-10 1 30

/-- `best_ssq`, and the coefficient and curve that go with it, unset at first, PSDM.py:1801-1818. -/
structure DsBest where
  ssq : ℝ
  val : Option (ℝ × (ℝ → ℝ))

/-- The loop over factors, PSDM.py:1805-1818; rows `(factor, error)`. -/
def dsLoop (S : Sim) (c : String) (obs : ℝ → ℝ) (brk base : ℝ) :
    List ℝ → GacObj → DsBest → List (ℝ × ℝ) → Except PyErr (DsBest × List (ℝ × ℝ)) × GacObj
  | [], o, b, rows => (.ok (b, rows), o)
  | f :: rest, o, b, rows =>
    match runPsdm S (setDs o c (f * base)) with
    | (.error e, o2) => (.error e, o2)
    | (.ok res, o2) =>
      let s := ssqOf brk (res c) obs
      open Classical in
      dsLoop S c obs brk base rest o2 (if s < b.ssq then ⟨s, some (base * f, res c)⟩ else b) (rows ++ [(f, s)])

/-- What the fit returns besides the compound. -/
structure DsOut where
  ds : ℝ
  ssqs : List (ℝ × ℝ)
  curve : ℝ → ℝ
  base : ℝ

/-- `run_psdm_dsfit`, PSDM.py:1764-1824. If no error is below 1e20 the values to return are unset. -/
def dsFit (S : Sim) (inp : DsIn) (o : GacObj) (c : String) : Except PyErr DsOut × GacObj :=
  let o1 := toSingle o c
  match o1.core.data.eff c with
  | none => (.error .keyError, o1)
  | some tab =>
    match inp.props c with
    | none => (.error .keyError, o1)
    | some (molVol, mw) =>
      let base := dsBase o1 c molVol (dsCb0 inp mw o1 c)
      match dsLoop S c (interpExtrap tab) (o1.core.kData c).brk base dsTests o1 ⟨1e20, none⟩ [] with
      | (.error e, o2) => (.error e, o2)
      | (.ok (b, rows), o2) =>
        match b.val with
        | none => (.error .unboundLocal, resetColumn o2)
        | some (d, curve) => (.ok ⟨d, rows, curve, base⟩, resetColumn o2)

/-- The loop over compounds of `predict_full_scale_ds`, PSDM_tools.py:559-570: `dsRow` is row `ds` of `k_data`, `daily`
turns a curve into values by day (negative ones set to zero; 564 compares with an empty table and changes nothing). -/
def pdsLoop (S : Sim) (inp : DsIn) (dsRow : String → Option ℝ) (daily : (ℝ → ℝ) → ℕ → ℝ) :
    List String → GacObj → List (ℕ → ℝ) → Except PyErr (List (ℕ → ℝ)) × GacObj
  | [], o, acc => (.ok acc, o)
  | c :: rest, o, acc =>
    match dsRow c with
    | none => (.error .keyError, o)
    | some d =>
      match dsFit S inp { o with testRange := [d] } c with
      | (.error e, o2) => (.error e, o2)
      | (.ok out, o2) => pdsLoop S inp dsRow daily rest o2 (acc ++ [daily out.curve])

/-- `predict_full_scale_ds`, PSDM_tools.py:511-643. The rotation is that of `predict_full_scale`. -/
def predictDs (S : Sim) (inp : DsIn) (dsRow : String → Option ℝ) (daily : (ℝ → ℝ) → ℕ → ℝ) (filter : List String)
    (total per maxDays : ℕ) (target : ℝ) (o : GacObj) : Except PyErr (ℕ × List ℝ) × GacObj :=
  match pdsLoop S inp dsRow daily filter { o with optimize := false, core := { o.core with compounds := filter } } [] with
  | (.error e, o2) => (.error e, o2)
  | (.ok curves, o2) => (.ok (predictFullScale total per maxDays curves target),
      { o2 with optimize := o.optimize, testRange := o.testRange, core := { o2.core with compounds := o.core.compounds } })

end
end WTM
