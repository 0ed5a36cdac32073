import Verif.Model.GacCapacity
import Verif.Model.GacState

/-! The estimate of `K` with `break_type='force'`, PSDM/psdm/PSDM.py:653-719, where the day of breakthrough is read
from a table, and the isotherm table `__init__` makes (282-318). `np.linalg.lstsq` is a parameter, `quad` the integral,
`interp1d` sorts its points. A day of zero, which divides by zero, is not modelled. -/
set_option autoImplicit false
namespace WTM
noncomputable section

/-- `np.append` of a point as `interp1d` sees it after its (stable) sort, PSDM.py:703-708. -/
def appendPoint : List (ℝ × ℝ) → ℝ → ℝ → List (ℝ × ℝ)
  | [], t, v => [(t, v)]
  | a :: l, t, v => if t < a.1 then (t, v) :: a :: l else a :: appendPoint l t v

/-- Integral of the concentration by time from zero. -/
def loadTo (l : List (ℝ × ℝ)) (T : ℝ) : ℝ := ∫ t in (0 : ℝ)..T, interpExtrap l t

/-- `k_function` as made at first, PSDM.py:422: ones. -/
def onesTab : List (ℝ × ℝ) := xnGrid.map fun x => (x, 1)

/-- The end of both branches, PSDM.py:682-686, 709-717. -/
def forceOut (i : CapIn) (infl effl : List (ℝ × ℝ)) (T aveC : ℝ) : CapOut :=
  let q := i.flow * (loadTo infl T - loadTo effl T) * i.massMul / i.wt
  ⟨q / (aveC * i.massMul) ^ i.xn, q, "supplied", T, aveC, onesTab⟩

/-- The rows the line is put through, PSDM.py:689-692: the last ones, one more than there are nonzero values. -/
def linePts (l : List (ℝ × ℝ)) : List (ℝ × ℝ) :=
  l.drop (l.length - ((l.map Prod.snd).countP (fun x => decide (x ≠ 0)) + 1))

/-- Where the line reaches the average influent, PSDM.py:694-699. -/
def lineTime (i : CapIn) (lsq : List (ℝ × ℝ) → ℝ × ℝ) : ℝ :=
  let r := lsq (linePts i.effl)
  if 0 < r.1 then (i.aveC - r.2) / r.1 else i.duration

open Classical in
/-- The branch `'force'` for the day in the table, PSDM.py:653-719; `lsq` returns slope and intercept. -/
def capForce (i : CapIn) (lsq : List (ℝ × ℝ) → ℝ × ℝ) (day : ℝ) : CapOut :=
  if day < 2000 then
    if day = 1000 then forceOut i i.infl i.effl i.duration i.aveC
    else forceOut i i.infl i.effl day (loadTo i.infl day / day)
  else if day = 2000 then
    let T := lineTime i lsq
    let infl := appendPoint i.infl T i.aveC
    forceOut i infl (appendPoint i.effl T i.aveC) T (loadTo infl T / T)
  else ⟨0, 0, "supplied", i.duration, i.aveC, onesTab⟩

/-- `interp1d(x, y)(t)` without extrapolation: `ValueError` outside of the table. -/
def interpStrict (l : List (ℝ × ℝ)) (t : ℝ) : Except PyErr ℝ :=
  open Classical in
  if t < (l.headD (0, 0)).1 ∨ (l.getLastD (0, 0)).1 < t then .error .valueError else .ok (interpExtrap l t)

/-- `k_function` of a forced estimate, PSDM.py:422: never replaced. -/
def forceKFun (i : CapIn) (lsq : List (ℝ × ℝ) → ℝ × ℝ) (day x : ℝ) : Except PyErr ℝ :=
  interpStrict (capForce i lsq day).kTab x

/-! ### The table of an object -/

/-- A row of `brk_df`. -/
structure BrkRow where
  carbon : String
  compound : String
  day : ℝ

/-- `brkdy`, PSDM.py:656-657: the first row; `IndexError` if there is none. -/
def brkDay (rows : List BrkRow) (carbon c : String) : Except PyErr ℝ :=
  match rows.find? fun r => r.carbon = carbon ∧ r.compound = c with
  | some r => .ok r.day
  | none => .error .indexError

/-- `comp in impacted`, PSDM.py:306-310. -/
def impacted (rows : List BrkRow) (carbon c : String) : Prop :=
  ∃ r ∈ rows, r.carbon = carbon ∧ r.day ≠ 3000 ∧ r.compound = c

/-- `np.array([k, self.xn, q, brk, aveC])`, PSDM.py:298, 312. -/
def kColOf (i : CapIn) (o : CapOut) : KCol := ⟨o.k, i.xn, o.q, o.brk, o.aveC⟩

/-- The estimate of one compound with `'force'`. -/
def forceCol (inp : String → CapIn) (lsq : List (ℝ × ℝ) → ℝ × ℝ) (rows : List BrkRow) (carbon c : String) :
    Except PyErr KCol := do
  let d ← brkDay rows carbon c
  pure (kColOf (inp c) (capForce (inp c) lsq d))

/-- One compound with a table given, PSDM.py:309-316: the assignment changes the table of the caller (304). -/
def givenStep (inp : String → CapIn) (lsq : List (ℝ × ℝ) → ℝ × ℝ) (rows : List BrkRow) (carbon : String) (t : KTab)
    (c : String) : Except PyErr KTab :=
  open Classical in
  if impacted rows carbon c then (forceCol inp lsq rows carbon c).map fun col => Function.update t c col else .ok t

/-- `k_data` with a table given, PSDM.py:304-316: the table the object has, which is also what the caller's has
become. A table without the five rows is not modelled. -/
def givenTable (force : Bool) (inp : String → CapIn) (lsq : List (ℝ × ℝ) → ℝ × ℝ) (rows : List BrkRow)
    (carbon : String) (comps : List String) (t : KTab) : Except PyErr KTab :=
  if force then comps.foldlM (givenStep inp lsq rows carbon) t else .ok t

end
end WTM
