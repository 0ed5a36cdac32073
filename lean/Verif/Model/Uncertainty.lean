import Mathlib.Data.Real.Archimedean
import Mathlib.Algebra.Order.Floor.Semiring
import Verif.Model.Py

/-! Uncertainty analysis of the ion-exchange columns: `HSDMIX.model_uncertainty` (hsdmix.py:575-659) and
`PSDMIX.model_uncertainty_PSDM` (psdmix.py:391-479). -/
set_option autoImplicit false
namespace WTM
noncomputable section

/-- The part of a column object the analysis touches: the parameter series, the ion table columns, the
influent table and the time multiplier. `self.params` is a pandas Series: looking up a missing name is
a `KeyError`. -/
structure IxObj (n : ℕ) where
  par : String → Option ℝ
  names : Fin n → String
  Kxc : Fin n → ℝ
  kL : Fin n → ℝ
  Ds : Fin n → ℝ
  Dp : Fin n → ℝ
  cin : List (ℝ × (Fin n → ℝ))
  timeMult : ℝ

/-- Everything `solve` reads from the object and the analysis may have changed: hsdmix.py:292-309,
346-356, 397-402, 488, 511 (`PSDMIX` also reads `EPOR` and `Dp`). -/
structure SimIn (n : ℕ) where
  EBED : Option ℝ
  L : Option ℝ
  v : Option ℝ
  nz : Option ℝ
  nr : Option ℝ
  rb : Option ℝ
  Q : Option ℝ
  EPOR : Option ℝ
  Kxc : Fin n → ℝ
  kL : Fin n → ℝ
  Ds : Fin n → ℝ
  Dp : Fin n → ℝ
  cin : List (ℝ × (Fin n → ℝ))
  timeMult : ℝ

variable {n : ℕ}

/-- What `solve` sees. -/
def IxObj.simIn (o : IxObj n) : SimIn n :=
  ⟨o.par "EBED", o.par "L", o.par "v", o.par "nz", o.par "nr", o.par "rb", o.par "Q", o.par "EPOR",
    o.Kxc, o.kL, o.Ds, o.Dp, o.cin, o.timeMult⟩

/-- `self.params.loc[name] *= value`: `KeyError` when the row is missing. -/
def scalePar (o : IxObj n) (name : String) (value : ℝ) : Except PyErr (IxObj n) :=
  match o.par name with
  | none => .error .keyError
  | some x => .ok { o with par := fun m => if m = name then some (x * value) else o.par m }

/-- Effect of one keyword, hsdmix.py:616-638, psdmix.py:433-461 (`psdm = true`). Unknown keywords cannot
occur (the dictionary keys are fixed, hsdmix.py:603). For `Kxc`, assigning to a row `CHLORIDE` that is
not in the table would append a row, which makes `conv_iex_u` index past the ions: `IndexError`. -/
def applyKey (psdm : Bool) (key : String) (value : ℝ) (o : IxObj n) : Except PyErr (IxObj n) :=
  if key = "capacity" then do
    let o ← scalePar o "Qf" value
    scalePar o "Q" value
  else if key = "ebed" then scalePar o "EBED" value
  else if key = "epor" ∧ psdm then scalePar o "EBED" value
  else if key = "ds" then scalePar o "Ds" value
  else if key = "dp" ∧ psdm then scalePar o "Dp" value
  else if key = "kL" then scalePar o "kL" value
  else if key = "flrt" then scalePar o "v" value
  else if key = "L" then scalePar o "L" value
  else if key = "c0" then
    .ok { o with cin := o.cin.map (fun r => (r.1, fun i => r.2 i * value)) }
  else if key = "Kxc" then
    if ∃ i, o.names i = "CHLORIDE" then
      .ok { o with Kxc := fun i => if o.names i = "CHLORIDE" then 1 else o.Kxc i * value }
    else .error .indexError
  else .ok o

/-- `np.arange(0, stop, 12)`, hsdmix.py:582, 585. -/
def arange12 (stop : ℝ) : List ℝ := (List.range ⌈stop / 12⌉₊).map (fun k : ℕ => 12 * (k : ℝ))

/-- The check `solve_ivp` does on `t_eval` (scipy, external): all requested times inside the span from 0
to the last influent time, else `ValueError` (hsdmix.py:537-546; both are multiplied by the same
positive factor `to_T`). -/
def timesOk (s : SimIn n) (tvals : List ℝ) : Prop :=
  ∀ t ∈ tvals, 0 ≤ t ∧ ∀ last, s.cin.getLast? = some last → t ≤ last.1

open Classical in
/-- `solve` followed by `conv_iex_u`: the effluent table as a function on some index type. The integration
itself is the parameter `sim`. -/
def runSim {ι : Type} (sim : SimIn n → List ℝ → Except PyErr (ι → ℝ)) (o : IxObj n)
    (tvals : List ℝ) : Except PyErr (ι → ℝ) :=
  if timesOk o.simIn tvals then sim o.simIn tvals else .error .valueError

/-- The output table: base, and the bounds when at least one keyword was given. -/
structure Band (ι : Type) where
  base : ι → ℝ
  upper : Option (ι → ℝ)
  lower : Option (ι → ℝ)

/-- The list of tests, hsdmix.py:603-609: `1 ± value/100` for every keyword given, in order. -/
def uncTests (inputs : List (String × Option ℝ)) : List (String × ℝ) :=
  inputs.flatMap fun kv => match kv.2 with
    | none => []
    | some v => [(kv.1, 1 + v / 100), (kv.1, 1 - v / 100)]

/-- One iteration of the loop, hsdmix.py:613-647: start again from the copy, perturb, run, widen. -/
def uncStep {ι : Type} (psdm : Bool) (sim : SimIn n → List ℝ → Except PyErr (ι → ℝ)) (copy : IxObj n)
    (tvals : List ℝ) (b : (ι → ℝ) × (ι → ℝ)) (test : String × ℝ) :
    Except PyErr ((ι → ℝ) × (ι → ℝ)) := do
  let o ← applyKey psdm test.1 test.2 copy
  let r ← runSim sim o tvals
  pure (fun x => if b.1 x < r x then r x else b.1 x, fun x => if b.2 x > r x then r x else b.2 x)

/-- The caller's object after the conversion to hours, and the evaluation times, hsdmix.py:578-587. The
code treats every multiplier other than 3600 as days. `duration` is `Cin_t.index[-1]`. -/
def uncTimes (o : IxObj n) (duration : ℝ) : IxObj n × List ℝ :=
  if o.timeMult = 3600 then (o, arange12 (duration + 1))
  else ({ o with
      cin := o.cin.map (fun r => (r.1 * 24, r.2))
      timeMult := 3600
      par := fun m => if m = "time" then some 3600 else o.par m },
    arange12 (duration * 24 + 1))

/-- `model_uncertainty`: the caller's object after the call and the outcome. `self` is rebound to copies
inside the loop (hsdmix.py:614, 656), so the caller's object is the one converted at the start. -/
def ixUncertainty {ι : Type} (psdm : Bool) (sim : SimIn n → List ℝ → Except PyErr (ι → ℝ))
    (o : IxObj n) (inputs : List (String × Option ℝ)) : IxObj n × Except PyErr (Band ι) :=
  match o.cin.getLast? with
  | none => (o, .error .indexError)
  | some last =>
    let ot := uncTimes o last.1
    (ot.1, do
      let base ← runSim sim ot.1 ot.2
      let tests := uncTests inputs
      let b ← tests.foldlM (uncStep psdm sim o ot.2) (base, base)
      pure (if tests.length > 0 then ⟨base, some b.1, some b.2⟩ else ⟨base, none, none⟩))

end
end WTM
