import Mathlib.MeasureTheory.Integral.IntervalIntegral.FundThmCalculus
import Mathlib.Analysis.Calculus.Deriv.Polynomial
import Verif.Lemmas.JacobiExist
import Verif.Props.Colloc

/-! Gauss quadrature on the zeros of shifted Legendre polynomials: the weights are positive and exact up to degree `2m - 1`. -/
set_option autoImplicit false
namespace WTM
open Polynomial BigOperators MeasureTheory

/-- `∫₀¹ f`. -/
noncomputable def pint (f : ℝ[X]) : ℝ := ∫ u in (0:ℝ)..1, f.eval u

theorem poly_intervalIntegrable (f : ℝ[X]) (a b : ℝ) : IntervalIntegrable (fun u => f.eval u) volume a b :=
  f.continuous.intervalIntegrable a b

theorem pint_add (f g : ℝ[X]) : pint (f + g) = pint f + pint g := by
  unfold pint
  simp only [eval_add]
  exact intervalIntegral.integral_add (poly_intervalIntegrable f 0 1) (poly_intervalIntegrable g 0 1)

theorem pint_C_mul (c : ℝ) (f : ℝ[X]) : pint (C c * f) = c * pint f := by
  unfold pint
  simp only [eval_mul, eval_C]
  exact intervalIntegral.integral_const_mul _ _

theorem pint_sum {ι : Type} (s : Finset ι) (f : ι → ℝ[X]) : pint (∑ i ∈ s, f i) = ∑ i ∈ s, pint (f i) := by
  classical
  induction s using Finset.induction_on with
  | empty => simp [pint]
  | insert a s ha ih => rw [Finset.sum_insert ha, Finset.sum_insert ha, pint_add, ih]

theorem integral_derivative_poly (f : ℝ[X]) (a b : ℝ) : ∫ u in a..b, (derivative f).eval u = f.eval b - f.eval a :=
  intervalIntegral.integral_eq_sub_of_hasDerivAt (fun x _ => f.hasDerivAt x) (poly_intervalIntegrable _ a b)

theorem legendre_orth {m : ℕ} {leg : Fin m → ℝ} (h : Spec.ShJacobiRoots m 1 1 leg) {g : ℝ[X]} (hg : g.degree < m) :
    pint (nod leg * g) = 0 := by
  rw [← h.2.2 g hg]
  unfold pint
  congr 1
  funext u
  rw [sub_self, Real.rpow_zero, Real.rpow_zero, eval_mul, nod, Lagrange.eval_nodal]
  ring

/-- Weight of a zero. -/
noncomputable def gaussW {m : ℕ} (leg : Fin m → ℝ) (k : Fin m) : ℝ := pint (lag leg k)

theorem nod_monic {m : ℕ} (leg : Fin m → ℝ) : (nod leg).Monic := Lagrange.nodal_monic

theorem nod_natDegree {m : ℕ} (leg : Fin m → ℝ) : (nod leg).natDegree = m := by
  unfold nod; rw [Lagrange.natDegree_nodal]; simp

theorem nod_eval {m : ℕ} (leg : Fin m → ℝ) (k : Fin m) : (nod leg).eval (leg k) = 0 :=
  Lagrange.eval_nodal_at_node (Finset.mem_univ k)

theorem gauss_exact {m : ℕ} {leg : Fin m → ℝ} (h : Spec.ShJacobiRoots m 1 1 leg) {f : ℝ[X]}
    (hf : f.natDegree + 1 ≤ 2 * m) : ∑ k, gaussW leg k * f.eval (leg k) = pint f := by
  have hmon := nod_monic leg
  have hnd := nod_natDegree leg
  have hdiv := modByMonic_add_div f (nod leg)
  have hr : (f %ₘ nod leg).degree < m := by
    have := degree_modByMonic_lt f hmon
    rwa [degree_eq_natDegree hmon.ne_zero, hnd] at this
  have hq : (f /ₘ nod leg).degree < m := by
    refine lt_of_le_of_lt degree_le_natDegree ?_
    rw [natDegree_divByMonic f hmon, hnd]
    exact_mod_cast (by omega : f.natDegree - m < m)
  have e1 : pint f = pint (f %ₘ nod leg) := by
    conv_lhs => rw [← hdiv, pint_add, legendre_orth h hq, add_zero]
  have e2 : ∀ k, f.eval (leg k) = (f %ₘ nod leg).eval (leg k) := by
    intro k
    conv_lhs => rw [← hdiv, eval_add, eval_mul, nod_eval, zero_mul, add_zero]
  rw [e1, eq_sum_lag h.1 hr, pint_sum]
  apply Finset.sum_congr rfl
  intro k _
  rw [pint_C_mul, e2 k, mul_comm]; rfl

theorem pint_pos {p : ℝ[X]} (hp : p ≠ 0) (h : ∀ t, 0 < t → t < 1 → 0 ≤ p.eval t) : 0 < pint p := by
  unfold pint
  have hi := poly_intervalIntegrable p 0 1
  have hae : 0 ≤ᵐ[volume.restrict (Set.uIoc 0 1)] (fun x : ℝ => p.eval x) := by
    rw [Set.uIoc_of_le zero_le_one, ← Measure.restrict_congr_set Ioo_ae_eq_Ioc]
    refine (ae_restrict_mem measurableSet_Ioo).mono ?_
    intro x hx
    exact h x hx.1 hx.2
  rw [intervalIntegral.integral_pos_iff_support_of_nonneg_ae' hae hi]
  refine ⟨zero_lt_one, ?_⟩
  have hsub : Set.Ioo (0:ℝ) 1 \ (p.roots.toFinset : Set ℝ) ⊆
      Function.support (fun x : ℝ => p.eval x) ∩ Set.Ioc 0 1 := by
    intro x hx
    refine ⟨?_, hx.1.1, hx.1.2.le⟩
    intro h0
    exact hx.2 (by simp [hp, h0])
  refine lt_of_lt_of_le ?_ (measure_mono hsub)
  rw [measure_sdiff_null (Set.Finite.measure_zero (Finset.finite_toSet _) _)]
  simp

/-- Zeros exist for every number of points. -/
theorem legendre_exists (m : ℕ) : ∃ leg : Fin m → ℝ, Spec.ShJacobiRoots m 1 1 leg ∧ StrictMono leg := by
  let φ : ℝ[X] →ₗ[ℝ] ℝ :=
    { toFun := pint
      map_add' := pint_add
      map_smul' := fun c f => by rw [smul_eq_C_mul, pint_C_mul]; rfl }
  obtain ⟨leg, hs, h01, ho⟩ := orth_nodes (φ := φ) (fun p hp h => pint_pos hp h) m
  refine ⟨leg, ⟨hs.injective, h01, ?_⟩, hs⟩
  intro g hg
  have h0 : pint (nod leg * g) = 0 := ho g hg
  refine Eq.trans ?_ h0
  unfold pint
  congr 1
  funext u
  rw [sub_self, Real.rpow_zero, Real.rpow_zero, eval_mul, nod, Lagrange.eval_nodal]
  ring

theorem gaussW_pos {m : ℕ} {leg : Fin m → ℝ} (h : Spec.ShJacobiRoots m 1 1 leg) (k : Fin m) : 0 < gaussW leg k := by
  have hm : 0 < m := k.pos
  have hne : lag leg k ≠ 0 := by
    intro h0
    have := lag_self h.1 k
    rw [h0] at this; simp at this
  have hdeg := lag_degree h.1 k
  have hnat : (lag leg k).natDegree < m := by
    rw [degree_eq_natDegree hne] at hdeg
    exact_mod_cast hdeg
  have h1 : 0 < pint (lag leg k * lag leg k) :=
    pint_pos (mul_ne_zero hne hne) fun t _ _ => by rw [eval_mul]; exact mul_self_nonneg _
  rw [← gauss_exact h (by rw [natDegree_mul hne hne]; omega)] at h1
  rw [Finset.sum_eq_single k] at h1
  · rw [eval_mul, lag_self h.1 k] at h1; simpa using h1
  · intro b _ hb
    rw [eval_mul, lag_ne hb]; simp
  · simp

theorem gaussW_sum {m : ℕ} (hm : 1 ≤ m) {leg : Fin m → ℝ} (h : Spec.ShJacobiRoots m 1 1 leg) : ∑ k, gaussW leg k = 1 := by
  have := gauss_exact h (f := 1) (by simp; omega)
  simpa [pint] using this

/-- The telescoping sum on one element: the weighted sum of the derivatives at the interior nodes is the difference of the ends. -/
theorem gauss_element {m : ℕ} (hm : 1 ≤ m) {leg : Fin m → ℝ} (h : Spec.ShJacobiRoots m 1 1 leg) (c : Fin (m + 2) → ℝ) :
    ∑ k : Fin m, gaussW leg k * ∑ j, aMat (axialNodes leg) k.castSucc.succ j * c j = c (Fin.last (m + 1)) - c 0 := by
  have hx := axialNodes_inj h.1 h.2.1
  set f : ℝ[X] := ∑ j, C (c j) * lag (axialNodes leg) j with hf
  have hfd : f.degree < (m + 2 : ℕ) := by
    refine lt_of_le_of_lt (degree_sum_le _ _) ?_
    rw [Finset.sup_lt_iff (by exact WithBot.bot_lt_coe _)]
    intro j _
    rw [← smul_eq_C_mul]
    refine lt_of_le_of_lt (degree_smul_le _ _) ?_
    exact lag_degree hx j
  have hfe : ∀ j, f.eval (axialNodes leg j) = c j := by
    intro j
    rw [hf, eval_finsetSum, Finset.sum_eq_single j]
    · rw [eval_mul, eval_C, lag_self hx, mul_one]
    · intro b _ hb
      rw [eval_mul, lag_ne hb.symm, mul_zero]
    · simp
  have hd : (derivative f).natDegree + 1 ≤ 2 * m := by
    have h1 : f.natDegree < m + 2 := by
      by_cases h0 : f = 0
      · rw [h0]; simp
      · rw [degree_eq_natDegree h0] at hfd; exact_mod_cast hfd
    have := natDegree_derivative_le f
    omega
  have key := gauss_exact h hd
  unfold pint at key
  rw [integral_derivative_poly] at key
  have e0 : f.eval 0 = c 0 := by
    have := hfe 0; simpa [axialNodes] using this
  have e1 : f.eval 1 = c (Fin.last (m + 1)) := by
    have := hfe (Fin.last (m + 1))
    rwa [show axialNodes leg (Fin.last (m + 1)) = 1 by
      rw [axialNodes, ← Fin.succ_last, Fin.cons_succ, Fin.snoc_last]] at this
  rw [e0, e1] at key
  rw [← key]
  apply Finset.sum_congr rfl
  intro k _
  congr 1
  have := aMat_apply hx hfd k.castSucc.succ
  simp only [hfe] at this
  rw [this]
  congr 1
  rw [axialNodes, Fin.cons_succ, Fin.snoc_castSucc]

end WTM
