import Mathlib.Analysis.SpecialFunctions.Log.Basic
import Mathlib.Analysis.SpecialFunctions.Pow.Real
import Mathlib.MeasureTheory.Integral.IntervalIntegral.Basic
import Verif.Model.Fouling

/-! Model of `PSDM.__calculate_capacity`, PSDM/psdm/PSDM.py:408-728, with `break_type='calc'` (the default): the
estimate of `K` from measured influent and effluent. `curve_fit` and `linregress` are parameters: the values they
return, or `none` if they raise; fits with a slope of zero, which give an infinite time, are not modelled. `quad` is
the integral. `interp1d` sorts its points. The `'force'` branch (653-719) is Model/GacForce.lean. -/
set_option autoImplicit false
namespace WTM
noncomputable section

/-- What the estimate reads: the rows of the data table for one compound (time, influent, effluent) in order of
time, and the column. -/
structure CapIn where
  rows : List (ℝ × ℝ × ℝ)
  duration : ℝ
  flrt : ℝ
  flowMult : ℝ
  tMult : ℝ
  wt : ℝ
  massMul : ℝ
  xn : ℝ

/-- `infl`, PSDM.py:425-426. -/
def CapIn.infl (i : CapIn) : List (ℝ × ℝ) := i.rows.map fun r => (r.1, if r.2.1 = 0 then 1e-3 else r.2.1)

/-- `effl`, PSDM.py:429. -/
def CapIn.effl (i : CapIn) : List (ℝ × ℝ) := i.rows.map fun r => (r.1, r.2.2)

/-- `np.mean`. -/
def meanOf (l : List ℝ) : ℝ := l.sum / l.length

/-- `aveC` at first, PSDM.py:427. -/
def CapIn.aveC (i : CapIn) : ℝ := meanOf (i.infl.map Prod.snd)

/-- `times_to_test`, PSDM.py:420: whole times below `duration + 1`. -/
def capDays (d : ℝ) : List ℝ := (List.range ⌈d + 1⌉₊).map fun k : ℕ => (k : ℝ)

/-- `np.round(x, 0)`: to the nearest integer, halves to the even one. -/
def npRound (x : ℝ) : ℝ :=
  let f := ⌊x⌋
  if x - f < 1 / 2 then f else if 1 / 2 < x - f then f + 1 else if f % 2 = 0 then f else f + 1

/-- `series.loc[t] = v` as `interp1d` sees it: the value at `t` is replaced, or the point is put in its place. -/
def setPoint : List (ℝ × ℝ) → ℝ → ℝ → List (ℝ × ℝ)
  | [], t, v => [(t, v)]
  | a :: l, t, v => if a.1 = t then (t, v) :: l else if t < a.1 then (t, v) :: a :: l else a :: setPoint l t v

/-- `logistic`, PSDM_functions.py:1028-1030. -/
def logistic (t c0 a b : ℝ) : ℝ := c0 / (1 + Real.exp (a - b * t))

/-- State of the search: `breakthrough_time`, `breakthrough_code`, `brk_found`, and the series. -/
structure Brk where
  time : ℝ
  code : String
  found : Bool
  infl : List (ℝ × ℝ)
  effl : List (ℝ × ℝ)

/-- The search over days, PSDM.py:468-488: the first day on which the effluent is not under the influent, less one;
else the first on which it is not under the average. -/
def capSearch (i : CapIn) : Option (ℝ × String) :=
  let fe := interpExtrap i.effl
  let fi := interpExtrap i.infl
  if ∃ e ∈ i.effl, ∃ c ∈ i.infl, c.2 ≤ e.2 then
    match (capDays i.duration).find? fun t => fi t ≤ fe t with
    | some t => some (t - 1, "breakthrough")
    | none => ((capDays i.duration).find? fun t => i.aveC ≤ fe t).map fun t => (t - 1, "exceed_aveC, implied")
  else none

/-- The time at which a fitted logistic reaches 99 %, to the day, PSDM.py:502. -/
def logisticTime (a b : ℝ) : ℝ := npRound ((a + Real.log 99) / b)

/-- The logistic branch, PSDM.py:490-549, without the artificial point. -/
def capLogistic (i : CapIn) (fit : Option (ℝ × ℝ × ℝ)) : Brk :=
  match fit with
  | none => ⟨i.duration, "none", false, i.infl, i.effl⟩
  | some (c0, a, b) =>
    let t := logisticTime a b
    if i.duration ≤ t then
      ⟨if 2000 < t then i.duration else t, "logistic", true, setPoint i.infl t i.aveC,
        setPoint i.effl t (logistic t c0 a b)⟩
    else if 0.25 * i.duration < t then ⟨if 2000 < t then i.duration else t, "logistic", true, i.infl, i.effl⟩
    else ⟨t, "none", false, i.infl, i.effl⟩

/-- The last positive time of a series, zero if there is none, PSDM.py:581-585, 606-610. -/
def lastPos (l : List (ℝ × ℝ)) : ℝ := l.foldl (fun g r => if 0 < r.1 then r.1 else g) 0

/-- The last time of a series below 2000, zero if there is none, PSDM.py:612-616. -/
def lastBelow (l : List (ℝ × ℝ)) : ℝ := l.foldl (fun g r => if r.1 < 2000 then r.1 else g) 0

/-- Slope and intercept of the linear branch, PSDM.py:555-576; `reg` is what `linregress` returns. -/
def capLine (i : CapIn) (reg : Option (ℝ × ℝ)) : Option ((ℝ × ℝ) × String) :=
  match i.effl.reverse with
  | l :: k :: _ =>
    if 0 < l.2 ∧ 0.25 ≤ l.2 / i.aveC then
      some ((l.2 / (l.1 - k.1), -l.2 * k.1 / (l.1 - k.1)), "linear, single point")
    else reg.map fun r => (r, "linear regression")
  | _ => none

/-- The linear branch, PSDM.py:551-596: entered with the state the logistic branch left. -/
def capLinear (i : CapIn) (s : Brk) (line : Option ((ℝ × ℝ) × String)) : Brk :=
  match line with
  | none => s
  | some ((m, c), code) =>
    let t := npRound ((i.aveC - c) / m)
    let t := if t ≤ 0 then lastPos i.effl else t
    ⟨t, code, true, setPoint s.infl t i.aveC, setPoint s.effl t i.aveC⟩

/-- The search as a whole, PSDM.py:442-596. Influent zeros were replaced, so the check at 438 never holds; with one
nonzero effluent value the type test at 452 always holds. -/
def capFind (i : CapIn) (fit : Option (ℝ × ℝ × ℝ)) (reg : Option (ℝ × ℝ)) : Brk :=
  if (i.effl.map Prod.snd).sum = 0 ∨ (i.effl.map Prod.snd).countP (fun x => decide (x ≠ 0)) = 1 then
    ⟨i.duration, "minimum", true, i.infl, i.effl⟩
  else match capSearch i with
    | some (t, code) => ⟨t, code, true, i.infl, i.effl⟩
    | none =>
      let s := capLogistic i fit
      if s.found then s else capLinear i s (capLine i reg)

/-- The last checks of the time, PSDM.py:599-618. The series holds the added point where the search put one. -/
def capClean (s : Brk) : ℝ :=
  if s.time < 0 then lastPos s.effl
  else if 2000 < s.time then lastBelow s.effl
  else if s.time = 0 then 1
  else s.time

/-- What the estimate returns: `k`, `q_meas`, code, time, `aveC`, and `k_s`, the table behind `k_function`. -/
structure CapOut where
  k : ℝ
  q : ℝ
  code : String
  brk : ℝ
  aveC : ℝ
  kTab : List (ℝ × ℝ)

/-- `xn_f_range`, PSDM.py:419: 0.15 to 1.00 by 0.01. -/
def xnGrid : List ℝ := (List.range 86).map fun k : ℕ => 0.15 + 0.01 * (k : ℝ)

/-- `flow_per_day`, PSDM.py:416. -/
def CapIn.flow (i : CapIn) : ℝ := i.flrt * i.flowMult * i.tMult

/-- The capacity, PSDM.py:620-650: a floor of 1e-6 on `q` if breakthrough was found. -/
def capResult (i : CapIn) (s : Brk) : CapOut :=
  let T := capClean s
  let fi := interpExtrap s.infl
  let fe := interpExtrap s.effl
  let q0 := ((∫ t in (0 : ℝ)..T, fi t) - ∫ t in (0 : ℝ)..T, fe t) * i.flow * i.massMul / i.wt
  let q := if s.found ∧ q0 ≤ 1e-6 then 1e-6 else q0
  let aveC := meanOf (((capDays i.duration).filter fun t => t ≤ T).map fi)
  ⟨q / (aveC * i.massMul) ^ i.xn, q, s.code, T, aveC, xnGrid.map fun x => (x, q / (aveC * i.massMul) ^ x)⟩

/-- `__calculate_capacity` without its last value, PSDM.py:408-728. -/
def calcCapacity (i : CapIn) (fit : Option (ℝ × ℝ × ℝ)) (reg : Option (ℝ × ℝ)) : CapOut :=
  capResult i (capFind i fit reg)

/-- `k_function`, PSDM.py:634, 650. -/
def CapOut.kFun (o : CapOut) (x : ℝ) : ℝ := interpExtrap o.kTab x

/-- `foul_mult_est`, PSDM.py:723: `f` is `fouling_dict[compound]`; `np.arange(T)` has the whole times below `T`. -/
def foulEst (f : ℝ → ℝ) (tMult T : ℝ) : ℝ := 1 / meanOf ((List.range ⌈T⌉₊).map fun k : ℕ => f (k * tMult))

/-- The artificial point, PSDM.py:505-520, as written to the data table (which is the one handed to the
constructor, 222): time to three decimals (`round3`), average influent, 90 % of the fitted plateau. -/
def capArtificial (i : CapIn) (round3 : ℝ → ℝ) (single ap : Bool) (fit : Option (ℝ × ℝ × ℝ)) :
    List (ℝ × ℝ × ℝ) :=
  match fit, i.effl.getLast?, i.infl.head? with
  | some (c0, a, b), some l, some h =>
    if ap ∧ single ∧ l.2 / h.2 < 0.5 then
      i.rows ++ [(round3 (-(Real.log (1 / 0.9 - 1) - a) / b), i.aveC, 0.9 * c0)]
    else i.rows
  | _, _, _ => i.rows

/-- The data table after the estimate: the artificial point is only considered when no breakthrough was seen. -/
def capData (i : CapIn) (round3 : ℝ → ℝ) (single ap : Bool) (fit : Option (ℝ × ℝ × ℝ)) : List (ℝ × ℝ × ℝ) :=
  if (i.effl.map Prod.snd).sum = 0 ∨ (i.effl.map Prod.snd).countP (fun x => decide (x ≠ 0)) = 1 then i.rows
  else match capSearch i with
    | some _ => i.rows
    | none => capArtificial i round3 single ap fit

end
end WTM
