import Mathlib.Data.Real.Basic

/-! Piecewise-linear interpolation as done by `scipy.interpolate.interp1d(kind='linear')` with its
default `bounds_error` and the influent time series built from it. -/
set_option autoImplicit false
namespace WTM
noncomputable section

/-- `interp1d(x, y, kind='linear')(t)` for a table of at least two rows with increasing `x`. scipy is an
external library: this is its documented behaviour (value on the segment containing `t`; `ValueError`,
here `none`, below the first or above the last `x`). One-row tables are not modelled (`none`). -/
def interpVal : List (ℝ × ℝ) → ℝ → Option ℝ
  | r0 :: r1 :: rest, t =>
    if t < r0.1 then none
    else if t ≤ r1.1 then some (r0.2 + (r1.2 - r0.2) / (r1.1 - r0.1) * (t - r0.1))
    else interpVal (r1 :: rest) t
  | _, _ => none

/-- One entry of `get_Cin(T)` with `const=False`, hsdmix.py:397-415 (psdmix.py:194-213): column `i` of the
influent sheet against `index * to_T`. -/
def getCin {n : ℕ} (tab : List (ℝ × (Fin n → ℝ))) (toT T : ℝ) (i : Fin n) : Option ℝ :=
  interpVal (tab.map (fun r => (r.1 * toT, r.2 i))) T

/-- `get_Cin(T)` with `const=True`, hsdmix.py:293-296, 411-412: the first row of the influent sheet. -/
def getCinConst {n : ℕ} (tab : List (ℝ × (Fin n → ℝ))) (i : Fin n) : Option ℝ :=
  tab.head?.map (fun r => r.2 i)

end
end WTM
