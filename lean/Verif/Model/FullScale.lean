import Verif.Model.DsFit

/-! `predict_full_scale` on a column object, PSDM_tools.py:205-252 and 310-318, without plots and files; the rotation
(258-308) is `predictFullScale` of Model/Tools.lean. The last time of the data is changed in place (216-219): `shared`
says whether the stored copy of the data (PSDM.py:733) has the same index array, which depends on the version of
pandas. `xdata` is not part of the object: the runs of one compound do not read it. -/
set_option autoImplicit false
namespace WTM
noncomputable section

/-- `idx[-1] = max_days` if the data end before, for one compound, PSDM_tools.py:216-218; times increase. -/
def stretchTab (md : ℝ) (l : List (ℝ × ℝ)) : List (ℝ × ℝ) :=
  match l.getLast? with
  | none => l
  | some r => if r.1 < md then l.dropLast ++ [(md, r.2)] else l

/-- The same for all of the data. -/
def stretchData (md : ℝ) (d : GacData) : GacData :=
  ⟨fun c => (d.infl c).map (stretchTab md), fun c => (d.eff c).map (stretchTab md)⟩

/-- PSDM_tools.py:213-219. -/
def fullStart (shared : Bool) (md : ℝ) (filter : List String) (o : GacObj) : GacObj :=
  { o with
    optimize := false
    core := { o.core with compounds := filter, data := stretchData md o.core.data }
    bup := if shared then { o.bup with data := stretchData md o.bup.data } else o.bup }

/-- PSDM_tools.py:229-231. -/
def fullTrial (o : GacObj) (c : String) : GacObj :=
  { o with
    testRange := [(o.core.kData c).K]
    xnRange := [(o.core.kData c).xn]
    xnDefault := (o.core.kData c).xn }

/-- The loop over compounds, PSDM_tools.py:228-241: `daily` turns a curve into values by day, negative ones set to
zero (234, 238-241, 252; 235 compares with an empty table and changes nothing). -/
def fullLoop (S : Sim) (daily : (ℝ → ℝ) → ℕ → ℝ) :
    List String → GacObj → List (ℕ → ℝ) → Except PyErr (List (ℕ → ℝ)) × GacObj
  | [], o, acc => (.ok acc, o)
  | c :: rest, o, acc =>
    match runKfit S (fullTrial o c) c with
    | (.error e, o2) => (.error e, o2)
    | (.ok out, o2) => fullLoop S daily rest o2 (acc ++ [daily out.curve])

/-- `predict_full_scale`, PSDM_tools.py:205-318. -/
def predictFull (S : Sim) (shared : Bool) (daily : (ℝ → ℝ) → ℕ → ℝ) (filter : List String)
    (total per maxDays : ℕ) (target : ℝ) (o : GacObj) : Except PyErr (ℕ × List ℝ) × GacObj :=
  match fullLoop S daily filter (fullStart shared maxDays filter o) [] with
  | (.error e, o2) => (.error e, o2)
  | (.ok curves, o2) => (.ok (predictFullScale total per maxDays curves target),
      { o2 with
        optimize := o.optimize
        testRange := o.testRange
        xnRange := o.xnRange
        xnDefault := o.xnDefault
        core := { o2.core with compounds := o.core.compounds } })

end
end WTM
