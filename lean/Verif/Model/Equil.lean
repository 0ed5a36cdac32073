import Mathlib.Data.Real.Sqrt
import Mathlib.Algebra.BigOperators.Fin

/-! Local equilibrium of the ion-exchange models: `calc_Ceq_dv`, `calc_Ceq_mv` of hsdmix.py:425-458
(identical in psdmix.py:222-256) and of the batch models hsdmixbatch.py:211-239 (identical in
psdmixbatch.py:211-239).

Ions are indexed by `Fin (p+1)`, `0` being the presaturant (reference). One axial point at a time (the
numpy code is vectorised over axial points). Valences are natural numbers. -/
set_option autoImplicit false
namespace WTM
noncomputable section
open BigOperators

variable {p : ℕ}

/-- `aa`, hsdmix.py:433: sum over `valences == 2`. -/
def eqAA (K : Fin (p + 1) → ℝ) (val : Fin (p + 1) → ℕ) (q : Fin (p + 1) → ℝ) : ℝ :=
  (∑ i, if val i = 2 then q i / K i else 0) / q 0 ^ 2

/-- `bb`, hsdmix.py:434: sum over `valences == 1` except the presaturant (342-343). -/
def eqBB (K : Fin (p + 1) → ℝ) (val : Fin (p + 1) → ℕ) (q : Fin (p + 1) → ℝ) : ℝ :=
  (∑ i, if val i = 1 ∧ i ≠ 0 then q i / K i else 0) / q 0 + 1

/-- `Cc_eq` of the column models, hsdmix.py:435-438. -/
def refConc (K : Fin (p + 1) → ℝ) (val : Fin (p + 1) → ℕ) (q : Fin (p + 1) → ℝ) (CT : ℝ) : ℝ :=
  let aa := eqAA K val q
  let bb := eqBB K val q
  let cc := -CT
  2 * cc / (-bb - Real.sqrt (bb ^ 2 - 4 * aa * cc))

/-- `Cc_eq` of the batch models, hsdmixbatch.py:215-218. `none` when the denominator `2*aa` is zero
(numpy gives nan or inf). -/
def refConcBatch (K : Fin (p + 1) → ℝ) (val : Fin (p + 1) → ℕ) (q : Fin (p + 1) → ℝ) (CT : ℝ) :
    Option ℝ :=
  let aa := eqAA K val q
  let bb := eqBB K val q
  let cc := -CT
  if aa = 0 then none else some ((-bb + Real.sqrt (bb ^ 2 - 4 * aa * cc)) / (2 * aa))

/-- `Ceq` from the reference concentration, hsdmix.py:440-444 and hsdmixbatch.py:220-222. -/
def ceqOfRef (K : Fin (p + 1) → ℝ) (val : Fin (p + 1) → ℕ) (q : Fin (p + 1) → ℝ) (c : ℝ)
    (i : Fin (p + 1)) : ℝ :=
  if i = 0 then c else q i / K i * (c / q 0) ^ val i

/-- `calc_Ceq_dv` of the column models. -/
def ceqDv (K : Fin (p + 1) → ℝ) (val : Fin (p + 1) → ℕ) (q : Fin (p + 1) → ℝ) (CT : ℝ) :
    Fin (p + 1) → ℝ :=
  ceqOfRef K val q (refConc K val q CT)

/-- `alpha`, hsdmix.py:351-356. -/
def alphaMat (K : Fin (p + 1) → ℝ) (i j : Fin (p + 1)) : ℝ := K i / K j

/-- `calc_Ceq_mv`, hsdmix.py:449-452. -/
def ceqMv (K : Fin (p + 1) → ℝ) (q : Fin (p + 1) → ℝ) (CT : ℝ) (i : Fin (p + 1)) : ℝ :=
  q i * CT / ∑ j, alphaMat K i j * q j

/-- Choice of `calc_Ceq`, hsdmix.py:454-458. -/
def ceq (K : Fin (p + 1) → ℝ) (val : Fin (p + 1) → ℕ) (q : Fin (p + 1) → ℝ) (CT : ℝ) :
    Fin (p + 1) → ℝ :=
  if ∃ i, val i = 2 then ceqDv K val q CT else ceqMv K q CT

/-- Choice of `calc_Ceq` in the batch models, hsdmixbatch.py:232-239. `none` stands for a non-finite
result. -/
def ceqBatch (K : Fin (p + 1) → ℝ) (val : Fin (p + 1) → ℕ) (q : Fin (p + 1) → ℝ) (CT : ℝ) :
    Option (Fin (p + 1) → ℝ) :=
  if ∃ i, val i = 2 then (refConcBatch K val q CT).map (ceqOfRef K val q)
  else some (ceqMv K q CT)

end
end WTM
