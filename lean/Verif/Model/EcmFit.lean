import Mathlib.Algebra.Order.Floor.Semiring
import Verif.Model.Ecm
import Verif.Model.Py

/-! `fit_ecm2` of ecm.py. The interpolating functions it is given are the caller's: a last time and a call that may raise
(`interp1d` without extrapolation does outside of its table). `minimize` sees the objective only. -/
set_option autoImplicit false
namespace WTM
noncomputable section

/-- A value of `conc_dict`: `np.max(f.x)` and `f(t)`. -/
structure EcmCurve where
  last : ℝ
  call : ℝ → Except PyErr ℝ

/-- `xdata = np.arange(0, T)`, ecm.py:247. -/
def fit2Days (T : ℝ) : List ℝ := (List.range ⌈T⌉₊).map fun k : ℕ => (k : ℝ)

/-- `np.sum((ecmdata - rawdata)**2)`, ecm.py:249-251: the call on the array raises if it would at any entry. -/
def fit2Sum (f : ℝ → ℝ) (g : EcmCurve) : List ℝ → Except PyErr ℝ
  | [] => .ok 0
  | t :: ts => match g.call t, fit2Sum f g ts with
    | .ok y, .ok e => .ok ((f t - y) ^ 2 + e)
    | .error e, _ => .error e
    | _, .error e => .error e

/-- The loop over the compounds, ecm.py:248-251; `plot` is `plot_obj`, keyed by the columns of `compdata`. -/
def fit2Loop (names : List String) (plot : ℕ → ℝ → ℝ) (days : List ℝ) : List (String × EcmCurve) → Except PyErr ℝ
  | [] => .ok 0
  | (c, g) :: rest =>
    if c ∈ names then
      match fit2Sum (plot (names.idxOf c)) g days, fit2Loop names plot days rest with
      | .ok a, .ok b => .ok (a + b)
      | .error e, _ => .error e
      | _, .error e => .error e
    else .error .keyError

/-- What `_helper` of `fit_ecm2` returns after `run_ecm` and `plot_ecm`, ecm.py:246-254. -/
def fit2Err (names : List String) (plot : ℕ → ℝ → ℝ) (dict : List (String × EcmCurve)) : Except PyErr ℝ :=
  match dict with
  | [] => .error .indexError
  | (_, g) :: _ => fit2Loop names plot (fit2Days g.last) dict

/-- The objective of `fit_ecm2` at a trial, ecm.py:236-254. -/
def EcmData.fit2 (d : EcmData) (b : EcmBed) (root : Root) (names : List String) (dict : List (String × EcmCurve))
    (ks xni : ℕ → ℝ) : Except PyErr ℝ :=
  let d' := d.trial ks xni
  fit2Err names (d'.plot b (d'.run b root)) dict

end
end WTM
