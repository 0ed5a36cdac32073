import Mathlib.Analysis.SpecialFunctions.Pow.Real
import Verif.Model.GacColumn

/-! Model of the correlations: water properties, film transfer and diffusivity, in PSDM/psdm/PSDM_functions.py and
IonExchangeModel/ixpy/KL_guess.py. `x**y` is the real power. -/
set_option autoImplicit false
namespace WTM
noncomputable section

/-- `viscosity`, PSDM_functions.py:729-736; KL_guess.py:46-52 is the same text. g/(cm s). -/
def waterVisc (temp : ℝ) : ℝ :=
  let t := temp + 273.15
  Real.exp (-24.71 + 4209 / t + 0.04527 * t - 3.376e-5 * t ^ 2) / 100

/-- `density`, PSDM_functions.py:738-746; KL_guess.py:55-59 is the same text. g/cm³. -/
def waterDens (temp : ℝ) : ℝ :=
  let t := (temp + 273.15) / 324.65
  0.98396 * (-1.41768 + 8.97665 * t - 12.2755 * t ^ 2 + 7.45844 * t ^ 3 - 1.73849 * t ^ 4)

/-- `ohashi`, PSDM_functions.py:670-679. -/
def ohashi (re sc : ℝ) : ℝ :=
  if re < 5.8 then 2 + 1.58 * re ^ (0.4 : ℝ) * sc ^ (1 / 3 : ℝ)
  else if 5.8 ≤ re ∧ re < 500 then 2 + 1.21 * re ^ (0.5 : ℝ) * sc ^ (1 / 3 : ℝ)
  else 2 + 0.59 * re ^ (0.6 : ℝ) * sc ^ (1 / 3 : ℝ)

/-- `gnielinski`, PSDM_functions.py:681-686. -/
def gnielinski (re sc ebed : ℝ) : ℝ :=
  let shl := 0.644 * re ^ (0.5 : ℝ) * sc ^ (1 / 3 : ℝ)
  let sht := 0.037 * re ^ (0.8 : ℝ) * sc / (1 + 2.443 * re ^ (-0.1 : ℝ) * (sc ^ (2 / 3 : ℝ) - 1))
  (2 + (shl ^ 2 + sht ^ 2) ^ (0.5 : ℝ)) * (1 + 1.5 * (1 - ebed))

/-- What `kf_calc` returns: a number, or a tuple of one number. -/
inductive KfVal
  | num (x : ℝ)
  | tuple (x : ℝ)

/-- `kf_calc`, PSDM_functions.py:748-781. The Ohashi branch ends in a comma (762). -/
def kfCalc (p re sc ebed : ℝ) (corr : String) : KfVal :=
  if corr = "Chern and Chien" then
    .num (p * (1 + 1.5 * (1 - ebed)) * (2 + 0.644 * re ^ (0.5 : ℝ) * sc ^ (1 / 3 : ℝ)))
  else if corr = "Tan et al" then .num (p * 1.1 / ebed * (re * sc) ^ (1 / 3 : ℝ))
  else if corr = "Wilson and Geankoplis" then .num (p * 1.09 / ebed * (re * sc) ^ (1 / 3 : ℝ))
  else if corr = "Ohashi et al" then .tuple (p * ohashi re sc)
  else if corr = "Williamson et al" then .num (p * 2.4 * ebed * re ^ (0.3 : ℝ) * sc ^ (0.42 : ℝ))
  else if corr = "Ko et al" then .num (p * (0.325 / (ebed * re ^ (0.36 : ℝ) * sc ^ (1 / 3 : ℝ))))
  else if corr = "Wakau and Funazkri" then .num (p * (2 + 1.1 * re ^ (0.6 : ℝ) * sc ^ (1 / 3 : ℝ)))
  else if corr = "Kakaoka et al" then
    .num (p * (1.85 * ((1 - ebed) / ebed) ^ (1 / 3 : ℝ) * re ^ (1 / 3 : ℝ) * sc ^ (1 / 3 : ℝ)))
  else .num (p * gnielinski re sc ebed)

/-- `self.re`, PSDM.py:216. -/
def gacRe (rad vs dw ebed vw : ℝ) : ℝ := 2 * rad * vs * dw / (ebed * vw)

/-- `Hayduk_Laudie`, KL_guess.py:63-74. -/
def haydukLaudie (mv temp : ℝ) : ℝ := 13.26e-5 * (waterVisc temp * 100) ^ (-1.14 : ℝ) * mv ^ (-0.589 : ℝ)

/-- `Wilke_Chang`, KL_guess.py:77-90. -/
def wilkeChang (mv temp mw psi : ℝ) : ℝ :=
  7.4e-8 * Real.sqrt (psi * mw) * (temp + 273.15) * mv ^ (-0.6 : ℝ) / (waterVisc temp * 100)

open Classical in
/-- `simple_Gnielinski`, KL_guess.py:93-121: the coefficient, and whether each of the two warnings is printed. -/
def simpleGnielinski (rb v ebed temp dl : ℝ) : ℝ × Bool × Bool :=
  let rho := waterDens temp
  let mu := waterVisc temp
  let dp := 2 * rb
  let u := v / ebed
  let re := u * dp * (rho / mu)
  let sc := mu / rho / dl
  let sh := (2 + 0.644 * re ^ (1 / 2 : ℝ) * sc ^ (1 / 3 : ℝ)) * (1 + 1.5 * (1 - ebed))
  (sh * dl / dp, decide (¬ (1 < re ∧ re < 100)), decide (¬ (0.6 < sc ∧ sc < 1e4)))

end
end WTM
