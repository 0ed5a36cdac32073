import Mathlib.Data.Real.Basic
import Mathlib.Data.List.Pairwise
import Verif.Model.Py

/-! Times at which the ion exchange models report: the argument `t_eval` of `solve`, hsdmix.py:397, 537-551, psdmix.py:194,
353-367, hsdmixbatch.py:295-305, psdmixbatch.py:309-319. The integration is not modelled: `solver` are the times the integrator
chooses when it is not given any. Success of the integration is assumed. -/
set_option autoImplicit false
namespace WTM
noncomputable section
open Classical

/-- `t_eval`: not given, a python list or a numpy array. -/
inductive TEval
  | absent
  | list (l : List ℝ)
  | array (l : List ℝ)

/-- `np.any(t_eval)`, hsdmix.py:541; `None` is false. -/
def TEval.any : TEval → Prop
  | .absent => False
  | .list l => ∃ t ∈ l, t ≠ 0
  | .array l => ∃ t ∈ l, t ≠ 0

/-- The requested times. -/
def TEval.times : TEval → List ℝ
  | .absent => []
  | .list l => l
  | .array l => l

/-- `solve_ivp(…, [0, tf], …, t_eval=…).t` (scipy, external): times outside the span or not in the direction of the integration are
refused with `ValueError`; the ones that are accepted are reported. (scipy compares neighbours; the relations are transitive.) -/
def ivpTimes (solver : List ℝ) (tf : ℝ) : Option (List ℝ) → Except PyErr (List ℝ)
  | none => .ok solver
  | some l =>
    if ∃ t ∈ l, t < min 0 tf ∨ max 0 tf < t then .error .valueError
    else if 0 < tf ∧ ¬ l.Pairwise (· < ·) ∨ tf < 0 ∧ ¬ l.Pairwise (· > ·) then .error .valueError
    else .ok l

/-- Times of the column models, hsdmix.py:397, 537-551. `last` is the last time of the influent table. A list times a numpy float is
a `TypeError`. -/
def colTimes (solver : List ℝ) (timeMult tHalf last : ℝ) (a : TEval) : Except PyErr (List ℝ) :=
  let toT := timeMult / tHalf
  let req : Except PyErr (Option (List ℝ)) :=
    if a.any then
      match a with
      | .absent => .ok none
      | .list _ => .error .typeError
      | .array l => .ok (some (l.map (· * toT)))
    else .ok none
  req.bind fun te => (ivpTimes solver (last * toT) te).map fun ts => ts.map (· * tHalf)

/-- Times of the batch models, hsdmixbatch.py:295-305. -/
def batchTimes (solver : List ℝ) (tEnd : ℝ) (a : TEval) : Except PyErr (List ℝ) :=
  ivpTimes solver tEnd (if a.any then some a.times else none)

end
end WTM
