import Mathlib.Analysis.SpecialFunctions.Trigonometric.Deriv
import Mathlib.MeasureTheory.Integral.IntervalIntegral.Basic

/-! Uptake by spheres from a stirred bath of finite size: diffusion in the sphere, a film around it, a linear isotherm. -/
set_option autoImplicit false
namespace WTM

/-- A batch: loading `u r t / r` at radius `r`, dissolved concentration `C t`. `u` obeys the diffusion equation and vanishes at the
centre; what diffuses into the surface is what the film passes; the water loses it. -/
def Spec.Batch (D R kf Kd Vw Vx : ℝ) (u : ℝ → ℝ → ℝ) (C : ℝ → ℝ) : Prop :=
  (∀ t, u 0 t = 0) ∧
  ∃ (ur urr ut : ℝ → ℝ → ℝ) (Ct : ℝ → ℝ),
    (∀ r t : ℝ, HasDerivAt (fun r => u r t) (ur r t) r ∧ HasDerivAt (fun r => ur r t) (urr r t) r ∧
      HasDerivAt (fun t => u r t) (ut r t) t ∧ ut r t = D * urr r t) ∧
    ∀ t : ℝ, HasDerivAt C (Ct t) t ∧
      D * (ur R t / R - u R t / R ^ 2) = kf * (C t - u R t / R / Kd) ∧
      Vw * Ct t = -(Vx * (3 / R) * (D * (ur R t / R - u R t / R ^ 2)))

/-- Mean loading of the sphere. -/
noncomputable def Spec.meanLoad (R : ℝ) (u : ℝ → ℝ → ℝ) (t : ℝ) : ℝ := 3 / R ^ 3 * ∫ r in (0 : ℝ)..R, r * u r t

/-- `p` is the wave number (over the radius) of a decaying mode of the batch; `kap` is the ratio of solute in the water to solute
on the spheres at equilibrium and `bet` the inverse Biot number. -/
def Spec.BathMode (kap bet p : ℝ) : Prop :=
  0 < p ∧ kap * p ^ 2 * (Real.sin p + bet * (p * Real.cos p - Real.sin p)) = 3 * (p * Real.cos p - Real.sin p)

end WTM
