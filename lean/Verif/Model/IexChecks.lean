import Verif.Model.IexColumn
import Verif.Model.IexBatch

/-! The checks on a finished run, hsdmix.py:560-571, psdmix.py:376-387, hsdmixbatch.py:315-316 and psdmixbatch.py:329-330,
on the list of stored times and states. `np.allclose` is its documented formula. Each prints one line of warning. -/
set_option autoImplicit false
namespace WTM
open BigOperators

/-- One entry of `np.allclose(a, b, rtol=rtol)`, with the default absolute tolerance (numpy, external). -/
def npClose (rtol a b : ℝ) : Prop := |a - b| ≤ 1e-8 + rtol * |b|

variable {r p z : ℕ}

/-- 'Total outlet does not follow total inlet!', hsdmix.py:560-565 (psdmix.py:376-381): solver times and states. -/
def warnOutlet (cin : ℝ → Fin (p + 1) → ℝ) (out : List (ℝ × ColState r p z)) : Prop :=
  ¬ ∀ x ∈ out, npClose 0.02 (∑ i, x.2 0 i (Fin.last z)) (∑ i, cin x.1 i)

/-- 'Sum of resin concentrations is not Q!', hsdmix.py:567-568 (psdmix.py:383-384): the row `SURF` only. -/
def warnResin (Q : ℝ) (out : List (ℝ × ColState r p z)) : Prop :=
  ¬ ∀ x ∈ out, ∀ w, npClose 0.01 (∑ i, x.2 (Fin.last (r + 1)) i w) Q

/-- 'Negative concentrations detected!', hsdmix.py:570-571 (psdmix.py:386-387): the last stored time only. -/
def warnNegative (out : List (ℝ × ColState r p z)) : Prop :=
  ∃ x, out.getLast? = some x ∧ ∃ a i w, x.2 a i w < 0

/-- The check of the batch models, hsdmixbatch.py:315-316 and psdmixbatch.py:329-330: row 1, the innermost bead point. -/
def warnBatch (Q : ℝ) (out : List (ℝ × BatchState r p)) : Prop :=
  ¬ ∀ x ∈ out, npClose 0.01 (∑ i, x.2 1 i) Q

end WTM
