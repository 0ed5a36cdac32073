import Mathlib.Analysis.Calculus.MeanValue
import Mathlib.Analysis.Calculus.Deriv.Add
import Mathlib.Analysis.Calculus.Deriv.Mul
import Verif.Spec.Ode

/-! A linear functional that vanishes on all rates is constant along solutions and schemes. -/
set_option autoImplicit false
namespace WTM
open BigOperators

/-- Constant along exact solutions: any finite combination of components. -/
theorem solves_invariant {S ι κ : Type} [Fintype κ] {π : ι → S → ℝ} {F : ℝ → S → S} {t0 t1 : ℝ}
    {y : ℝ → S} (h : Spec.Solves π F t0 t1 y) (c : κ → ℝ) (e : κ → ι)
    (hz : ∀ t ∈ Set.Icc t0 t1, ∑ b, c b * π (e b) (F t (y t)) = 0) {t : ℝ} (ht : t ∈ Set.Icc t0 t1) :
    ∑ b, c b * π (e b) (y t) = ∑ b, c b * π (e b) (y t0) := by
  have hd : ∀ s ∈ Set.Icc t0 t1,
      HasDerivWithinAt (fun s => ∑ b, c b * π (e b) (y s)) 0 (Set.Icc t0 t1) s := by
    intro s hs
    have := HasDerivWithinAt.fun_sum (u := Finset.univ) (A := fun b s => c b * π (e b) (y s))
      (A' := fun b => c b * π (e b) (F s (y s))) (fun b _ => (h s hs (e b)).const_mul (c b))
    rwa [hz s hs] at this
  have hconst := constant_of_derivWithin_zero (f := fun s => ∑ b, c b * π (e b) (y s))
    (fun s hs => (hd s hs).differentiableWithinAt)
    (fun s hs => (hd s ⟨hs.1, hs.2.le⟩).derivWithin
      (uniqueDiffOn_Icc (lt_of_le_of_lt hs.1 hs.2) s ⟨hs.1, hs.2.le⟩))
  exact hconst t ht

/-- Constant along every scheme. -/
theorem produced_invariant {S : Type} [AddCommGroup S] [Module ℝ S] {F : ℝ → S → S} {y0 : S}
    (φ : S →ₗ[ℝ] ℝ) (hz : ∀ t w, φ (F t w) = 0) {y : S} (h : Spec.Produced F y0 y) :
    φ y = φ y0 := by
  induction h with
  | start => rfl
  | step m l ys a hys ha T c w ih =>
    simp only [map_add, map_sum, map_smul, hz, ih, smul_eq_mul, mul_zero, Finset.sum_const_zero,
      add_zero]
    rw [← Finset.sum_mul, ha, one_mul]

end WTM
