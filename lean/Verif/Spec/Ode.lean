import Mathlib.Analysis.Calculus.Deriv.Basic
import Mathlib.Algebra.BigOperators.Fin
import Mathlib.Algebra.Module.BigOperators

/-! What it means to integrate a system of differential equations: exact solutions and discrete schemes.
Independent of the models. -/
set_option autoImplicit false
namespace WTM.Spec
open BigOperators

/-- `y` solves `y' = F t y` on `[t0, t1]`; `π a` is component `a` of a state. -/
def Solves {S ι : Type} (π : ι → S → ℝ) (F : ℝ → S → S) (t0 t1 : ℝ) (y : ℝ → S) : Prop :=
  ∀ t ∈ Set.Icc t0 t1, ∀ a,
    HasDerivWithinAt (fun s => π a (y s)) (π a (F t (y t))) (Set.Icc t0 t1) t

/-- States produced by any consistent linear multistep or Runge-Kutta style method: the start, and
every affine combination (weights summing to 1) of states already produced plus any combination of
rates evaluated at any times and stages. Covers BDF with variable step and order. -/
inductive Produced {S : Type} [AddCommGroup S] [Module ℝ S] (F : ℝ → S → S) (y0 : S) : S → Prop
  | start : Produced F y0 y0
  | step (m l : ℕ) (ys : Fin m → S) (a : Fin m → ℝ) (hys : ∀ j, Produced F y0 (ys j))
      (ha : ∑ j, a j = 1) (T c : Fin l → ℝ) (w : Fin l → S) :
      Produced F y0 (∑ j, a j • ys j + ∑ j, c j • F (T j) (w j))

end WTM.Spec
