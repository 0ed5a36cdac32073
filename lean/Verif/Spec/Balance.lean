import Mathlib.MeasureTheory.Integral.IntervalIntegral.Basic
import Mathlib.Algebra.Polynomial.Eval.Defs

/-! What a mean over the length of a bed is, for values known at points along it. Independent of the models. -/
set_option autoImplicit false
namespace WTM.Spec
open BigOperators Polynomial

/-- `g` are weights for the mean over the bed of values at the points `x` (0 inlet, 1 outlet): not negative, none at the
inlet, and for polynomials up to degree `d` the weighted sum is the integral over the bed. -/
structure BedMean {z : ℕ} (x : Fin (z + 1) → ℝ) (d : ℕ) (g : Fin (z + 1) → ℝ) : Prop where
  nonneg : ∀ w, 0 ≤ g w
  inlet : g 0 = 0
  exact : ∀ f : ℝ[X], f.natDegree ≤ d → ∑ w, g w * f.eval (x w) = ∫ s in (0:ℝ)..1, f.eval s

/-- In the mean over the bed the operator `A` for the slope gives outlet minus inlet. -/
def Telescopes {z : ℕ} (A : Fin (z + 1) → Fin (z + 1) → ℝ) (g : Fin (z + 1) → ℝ) : Prop :=
  ∀ c : Fin (z + 1) → ℝ, ∑ w, g w * ∑ w', A w w' * c w' = c (Fin.last z) - c 0

theorem BedMean.sum {z d : ℕ} {x g : Fin (z + 1) → ℝ} (h : BedMean x d g) : ∑ w, g w = 1 := by
  have := h.exact 1 (by simp)
  simpa using this

end WTM.Spec
