import Mathlib.Analysis.SpecialFunctions.Integrals.Basic
import Mathlib.LinearAlgebra.Lagrange

/-! Specifications for collocation: even polynomials, the radial integral, and what
`scipy.special.roots_sh_jacobi` is documented to return. -/
set_option autoImplicit false
namespace WTM.Spec
open Polynomial

/-- `f` is an even function. -/
def Even (f : ℝ[X]) : Prop := ∀ t : ℝ, f.eval (-t) = f.eval t

/-- `∫₀¹ x^(a-1) f(x) dx`: the integral over a slab (a=1), cylinder (2) or sphere (3), up to the
constant of the geometry. -/
noncomputable def radialIntegral (a : ℝ) (f : ℝ[X]) : ℝ :=
  ∫ x in (0:ℝ)..1, x ^ (a - 1) * f.eval x

/-- `r` lists the `m` zeros of the shifted Jacobi polynomial `G_m(p,q)`: distinct points of (0,1) whose
nodal polynomial is orthogonal to all polynomials of lower degree for the weight
`(1-u)^(p-q) u^(q-1)` on [0,1]. -/
def ShJacobiRoots (m : ℕ) (p q : ℝ) (r : Fin m → ℝ) : Prop :=
  Function.Injective r ∧ (∀ i, 0 < r i ∧ r i < 1) ∧
  ∀ g : ℝ[X], g.degree < m →
    ∫ u in (0:ℝ)..1, (1 - u) ^ (p - q) * u ^ (q - 1) * ((∏ i, (u - r i)) * g.eval u) = 0

end WTM.Spec
