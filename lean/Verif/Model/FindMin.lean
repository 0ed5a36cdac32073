import Mathlib.Algebra.Order.Archimedean.Real.Basic
import Mathlib.Algebra.Order.Floor.Semiring
import Verif.Model.Py

/-! `find_minimum_df`, PSDM_functions.py:909-997: the choice of the best cell of a table of errors. A table of `nx` rows
and `ny` columns is a function of the positions; labels are positions. Entries are numbers (no NaN). Division of a
positive number by zero, which gives infinity in the code, is not modelled; of zero by zero is. -/
set_option autoImplicit false
namespace WTM
noncomputable section

/-- Positions in the order of `np.where`: row by row. -/
def cellsOf (nx ny : ℕ) : List (ℕ × ℕ) := (List.range nx).flatMap fun x => (List.range ny).map fun y => (x, y)

abbrev ErrTable := ℕ × ℕ → ℝ

def minOf (l : List ℝ) : ℝ := l.foldl min (l.headD 0)
def maxOf (l : List ℝ) : ℝ := l.foldl max (l.headD 0)

/-- `np.percentile(a, 10)`: linear between order statistics. -/
def percentile10 (l : List ℝ) : ℝ :=
  let s := l.mergeSort (fun a b => decide (a ≤ b))
  let h := ((l.length : ℝ) - 1) * (10 / 100)
  let k := ⌊h⌋₊
  s.getD k 0 + (h - k) * (s.getD (k + 1) 0 - s.getD k 0)

/-- First and last position (exclusive) of the block around `i` on an axis of length `n`, PSDM_functions.py:940-958. -/
def blockLo (i : ℕ) : ℕ := if 0 < i then i - 1 else 0
def blockHi (i n : ℕ) : ℕ := if i < n - 1 then i + 2 else n

/-- `stepsX`, `stepsY`, PSDM_functions.py:934-935, 960-963. -/
def blockSteps (i n : ℕ) : ℕ := if i = 0 ∨ i = n - 1 then 2 else 3

/-- `subset`, PSDM_functions.py:966; the positions. -/
def blockOf (nx ny : ℕ) (p : ℕ × ℕ) : List (ℕ × ℕ) :=
  (List.range' (blockLo p.1) (blockHi p.1 nx - blockLo p.1)).flatMap fun x =>
    (List.range' (blockLo p.2) (blockHi p.2 ny - blockLo p.2)).map fun y => (x, y)

/-- One entry of `val_list`, PSDM_functions.py:970-972: `none` for the mean is NaN. -/
structure Cand where
  mean : Option ℝ
  val : ℝ
  pos : ℕ × ℕ
  below : ℕ
  tol : ℕ

/-- One pass, PSDM_functions.py:933-974: the candidate, and the table with its value replaced by the largest. -/
def candStep (nx ny : ℕ) (thresh maxVal : ℝ) (t : ErrTable) : Cand × ErrTable :=
  let cur := minOf ((cellsOf nx ny).map t)
  let p := ((cellsOf nx ny).find? fun q => decide (t q = cur)).getD (0, 0)
  let sub := (blockOf nx ny p).map t
  let m := (sub.map fun v => v - cur).sum / sub.length
  (⟨if cur = 0 ∧ m = 0 then none else some (m / cur), cur, p,
    sub.countP fun v => decide (v < thresh), blockSteps p.1 nx * blockSteps p.2 ny⟩,
   fun q => if t q = cur then maxVal else t q)

/-- `val_list`. -/
def candList (nx ny : ℕ) (thresh maxVal : ℝ) : ℕ → ErrTable → List Cand
  | 0, _ => []
  | n + 1, t => (candStep nx ny thresh maxVal t).1 :: candList nx ny thresh maxVal n (candStep nx ny thresh maxVal t).2

/-- `np.min(np_val[:,0])` and the first row with it, PSDM_functions.py:977-979; a NaN matches nothing. -/
def bestCand (l : List Cand) : Except PyErr Cand :=
  match l.mapM Cand.mean with
  | none => .error .indexError
  | some ms => match l.find? fun c => decide (c.mean = some (minOf ms)) with
    | some c => .ok c
    | none => .error .indexError

/-- `find_minimum_df` on a table, PSDM_functions.py:916-997: position and value. A minimum in several cells is a
`TypeError` at 930, as an array of several positions has no `int`; a table without cells has no maximum. -/
def findMinimum (nx ny : ℕ) (t : ErrTable) : Except PyErr ((ℕ × ℕ) × ℝ) :=
  let vals := (cellsOf nx ny).map t
  if vals = [] then .error .valueError
  else
    let m := minOf vals
    match (cellsOf nx ny).filter fun q => decide (t q = m) with
    | [p] =>
      match bestCand (candList nx ny (percentile10 vals) (maxOf vals) 10 t) with
      | .error e => .error e
      | .ok c => .ok (if c.below = c.tol then (c.pos, c.val) else (p, m))
    | _ => .error .typeError

end
end WTM
