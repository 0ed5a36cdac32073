import Mathlib.Analysis.SpecialFunctions.Exp
import Verif.Model.Py

/-! Fouling of carbon capacity and tortuosity: PSDM_functions.py:463-509, 688-727 and
`__get_fouling_params`, `__fouled_k_new` in PSDM.py:357-406 (the Shiny-GAC copies are identical). -/
set_option autoImplicit false
namespace WTM
noncomputable section

/-- `foul_params['water']`, PSDM_functions.py:463-468: `[a1, a2, a3, a4]`. -/
def foulWater : List (String × ℝ × ℝ × ℝ × ℝ) :=
  [("Organic Free", 1, 0, 0, 0),
   ("Rhine", 0.35, -6.15e-8, 0.65, -8.93e-5),
   ("Portage", 0.510, -9.21e-7, 0.490, -2.80e-5),
   ("Karlsruhe", 0.65, -6.71e-7, 0.35, -1.00e-4),
   ("Wausau", 0.83, -9.12e-7, 0.17, -2.65e-4),
   ("Houghton", 0.66, -1.55e-7, 0.34, -7.29e-5)]

/-- `foul_params['chemical']` without the entry `'PFAS'`, PSDM_functions.py:469-478: `[b1, b2]`. -/
def foulChem : List (String × ℝ × ℝ) :=
  [("halogenated alkanes", 1.2, -0.2),
   ("halogenated alkanes QSPR", 1.22, -0.12),
   ("halogenated alkenes", 1.0, 0.0),
   ("trihalo-methanes", 1.0, 0.0),
   ("aromatics", 0.9, 0.1),
   ("nitro compounds", 0.75, 0.25),
   ("chlorinated hydrocarbon", 0.59, 0.41),
   ("phenols", 0.65, 0.35),
   ("PNAs", 0.32, 0.68),
   ("pesticides", 0, 0.05)]

/-- `foul_params['chemical']['PFAS']` except `'Ave'`, PSDM_functions.py:479-506. -/
def foulPfas : List (String × ℝ × ℝ) :=
  [("PFBA", 0.82, 0.12), ("PFPeA", 0.67, 0.19), ("PFHxA", 0.55, 0.28), ("PFHpA", 0.44, 0.36),
   ("PFOA", 0.34, 0.44), ("PFNA", 0.24, 0.53), ("PFDA", 0.17, 0.61), ("PFBS", 0.68, 0.24),
   ("PFHxS", 0.44, 0.48), ("PFHpS", 0.34, 0.57), ("PFOS", 0.25, 0.66), ("PFMOAA", 0.88, 0.055),
   ("PFO2HxA", 0.63, 0.17), ("PFO3OA", 0.43, 0.27), ("GenX", 0.50, 0.34), ("PFO4DA", 0.25, 0.37),
   ("NafionBP2", 0.29, 0.63), ("62FTS", 0.38, 0.62), ("82FTS", 0.20, 0.79), ("PFPrS", 0.63, 0.14),
   ("PMPA", 0.63, 0.17), ("PFPeS", 0.49, 0.35), ("PFPrA", 0.88, 0.03), ("TCE", 1.0, 0),
   ("PFOS_sp", 1.22, -0.12), ("PFOA_sp", 1.22, -0.12)]

/-- `foul_params['chemical']['PFAS']['Ave']`, PSDM_functions.py:508. -/
def foulAve : ℝ × ℝ := (0.45, 0.41)

/-- The pair `b1, b2` of a compound, PSDM.py:365-383. The key `'Ave'` is in the dictionary too, so a
compound of that name gets the same pair as an unknown one. -/
def foulB (chem comp : String) : Except PyErr (ℝ × ℝ) :=
  if chem = "PFAS" then .ok ((foulPfas.lookup comp).getD foulAve)
  else match foulChem.lookup chem with
    | some b => .ok b
    | none => .error .keyError

/-- `rk1, rk2, rk3, rk4`, PSDM.py:385-388 (PSDM_functions.py:700-703). -/
def rkOf (a : ℝ × ℝ × ℝ × ℝ) (b : ℝ × ℝ) : ℝ × ℝ × ℝ × ℝ :=
  (b.1 * a.1 + b.2, b.1 * a.2.1, b.1 * a.2.2.1, b.1 * a.2.2.2)

/-- `__get_fouling_params` for one compound, PSDM.py:357-389. An unknown water is a `KeyError`. -/
def foulParams (water chem comp : String) : Except PyErr (ℝ × ℝ × ℝ × ℝ) :=
  match foulWater.lookup water with
  | none => .error .keyError
  | some a => (foulB chem comp).map (rkOf a)

/-- The curve before the floor, PSDM.py:397-399. -/
def foulRaw (rk : ℝ × ℝ × ℝ × ℝ) (t : ℝ) : ℝ := rk.1 + rk.2.1 * t + rk.2.2.1 * Real.exp (rk.2.2.2 * t)

/-- One tabulated value of `__fouled_k_new`, PSDM.py:397-401. -/
def foulMult (rk : ℝ × ℝ × ℝ × ℝ) (t : ℝ) : ℝ := if foulRaw rk t < 1e-3 then 1e-3 else foulRaw rk t

/-- `np.linspace(0, T, N+2)`, PSDM.py:277 (there `N + 2 = 500`). -/
def linspace0 (T : ℝ) (N : ℕ) : List ℝ := (List.range (N + 2)).map (fun k : ℕ => T * k / (N + 1))

/-- `interp1d(x, y, fill_value='extrapolate')(t)` (scipy, external): the line of the first segment whose
right end is not left of `t`, the last segment beyond the table, the first before it. -/
def interpExtrap : List (ℝ × ℝ) → ℝ → ℝ
  | r0 :: r1 :: r2 :: rest, t =>
    if t ≤ r1.1 then r0.2 + (r1.2 - r0.2) / (r1.1 - r0.1) * (t - r0.1)
    else interpExtrap (r1 :: r2 :: rest) t
  | [r0, r1], t => r0.2 + (r1.2 - r0.2) / (r1.1 - r0.1) * (t - r0.1)
  | _, _ => 0

/-- `fouling_dict[comp]`, PSDM.py:277-278, 396-406: the multiplier the column uses. -/
def foulTable (rk : ℝ × ℝ × ℝ × ℝ) (T : ℝ) (N : ℕ) : List (ℝ × ℝ) :=
  (linspace0 T N).map (fun t => (t, foulMult rk t))

/-- `fouling_dict[comp](t)`. -/
def foulAt (rk : ℝ × ℝ × ℝ × ℝ) (T : ℝ) (N : ℕ) (t : ℝ) : ℝ := interpExtrap (foulTable rk T N) t

/-- `fouling_k`, PSDM_functions.py:688-711: capacity after time `t`. For `'PFAS'` the chemical entry is a
dictionary with 27 keys and unpacking it into two names is a `ValueError`. -/
def foulingK (k t : ℝ) (water chem : String) : Except PyErr ℝ :=
  match foulWater.lookup water with
  | none => .error .keyError
  | some a =>
    if chem = "PFAS" then .error .valueError
    else match foulChem.lookup chem with
      | none => .error .keyError
      | some b =>
        let kt := k * foulRaw (rkOf a b) t
        .ok (if kt < k / 1e3 then k / 1e3 else kt)

/-- `min_per_day`, PSDM_functions.py:42. -/
def minPerDay : ℝ := 24 * 60

/-- `tortuosity` of an array, elementwise, PSDM_functions.py:719-722. -/
def tortArr (t : ℝ) : ℝ := if 0.334 + 6.61e-6 * t < 1 then 1 else 0.334 + 6.61e-6 * t

/-- `tortuosity` of a scalar, PSDM_functions.py:723-727. -/
def tortScalar (t : ℝ) : ℝ := if t < 70 * minPerDay then 1 else 0.334 + 6.61e-6 * t

end
end WTM
