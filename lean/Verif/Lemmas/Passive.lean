import Verif.Lemmas.ColumnDecay
import Mathlib.MeasureTheory.Integral.IntervalIntegral.FundThmCalculus

/-! The column of one element without selectivity is passive: in the energy of its axial product it takes in no more than half the square of
what flows in, and gives off half the square of what flows out. -/
set_option autoImplicit false
namespace WTM
open Polynomial BigOperators Set

/-- What is used of the axial operator besides `AxialForm`: energy goes in with the influent and out with the effluent. -/
def PassiveForm {m : ℕ} (A : Fin (m + 2) → Fin (m + 2) → ℝ) (G : Fin (m + 1) → Fin (m + 1) → ℝ) : Prop :=
  ∀ (c : Fin (m + 1) → ℝ) (d : ℝ), c (Fin.last m) ^ 2 - d ^ 2 ≤ 2 * gdot G c (fun w => ∑ w' : Fin (m + 1), A w.succ w'.succ * (c w' - d))

theorem passive_of {m : ℕ} {A : Fin (m + 2) → Fin (m + 2) → ℝ} {e : (Fin (m + 1) → ℝ) → ℝ} (G : Fin (m + 1) → Fin (m + 1) → ℝ)
    (symm : ∀ v w, G v w = G w v) (pos : ∀ c, 0 ≤ gdot G c c) (definite : ∀ c, gdot G c c = 0 → c = 0)
    (hl : ∀ c d, gdot G c (fun w => ∑ w' : Fin (m + 1), A w.succ w'.succ * (c w' - d)) = (c (Fin.last m) ^ 2 - d ^ 2 + (e c - d) ^ 2) / 2) :
    ∃ G, AxialForm A G ∧ PassiveForm A G := by
  refine ⟨G, ⟨symm, pos, definite, fun c => ?_⟩, fun c d => ?_⟩
  · have := hl c 0
    simp only [sub_zero] at this
    rw [this]
    nlinarith [sq_nonneg (c (Fin.last m)), sq_nonneg (e c)]
  · rw [hl]
    nlinarith [sq_nonneg (e c - d)]

theorem passive_legendre {m : ℕ} {leg : Fin m → ℝ} (h : Spec.ShJacobiRoots m 1 1 leg) :
    ∃ G, AxialForm (aMat (axialNodes leg)) G ∧ PassiveForm (aMat (axialNodes leg)) G := by
  have hX := axialNodes_inj h.1 h.2.1
  set x : Fin (m + 1) → ℝ := fun w => axialNodes leg w.succ with hx
  have hxi : Function.Injective x := fun v w e => Fin.succ_injective _ (hX e)
  set N := nod leg with hN
  have hNm : N.Monic := nod_monic leg
  have hNd : N.natDegree = m := nod_natDegree leg
  set γ : ℝ := m * pint (N * N) / (m + 1) with hγ
  have hm1 : (m : ℝ) + 1 ≠ 0 := by positivity
  have hNN : 0 < pint (N * N) :=
    pint_pos (mul_ne_zero hNm.ne_zero hNm.ne_zero) fun t _ _ => by rw [eval_mul]; exact mul_self_nonneg _
  have hγ0 : 0 ≤ γ := by positivity
  refine passive_of (e := fun c => (interpPoly x c).eval 0) (fun v w => pint (lag x v * lag x w) + γ * ((lag x v).coeff m * (lag x w).coeff m)) ?_ ?_ ?_ ?_
  · intro v w
    rw [mul_comm (lag x v), mul_comm ((lag x v).coeff m)]
  · intro c
    rw [gdot_poly]
    refine add_nonneg ?_ (mul_nonneg hγ0 (mul_self_nonneg _))
    by_cases h0 : interpPoly x c = 0
    · rw [h0]; simp [pint]
    · exact (pint_pos (mul_ne_zero h0 h0) fun t _ _ => by rw [eval_mul]; exact mul_self_nonneg _).le
  · intro c hc
    rw [gdot_poly] at hc
    have h2 := mul_nonneg hγ0 (mul_self_nonneg ((interpPoly x c).coeff m))
    have h0 : interpPoly x c = 0 := by
      by_contra h0
      have := pint_pos (mul_ne_zero h0 h0) fun t _ _ => by rw [eval_mul]; exact mul_self_nonneg _
      linarith
    funext w
    rw [← interpPoly_eval hxi c w, h0, eval_zero]
    rfl
  · intro c d
    set R := interpPoly x c with hR
    have hRd : R.natDegree ≤ m := interpPoly_natDegree hxi c
    set g := (X - C 1) * N with hg
    have hgm : g.Monic := (monic_X_sub_C 1).mul hNm
    have hgd : g.natDegree = m + 1 := by
      rw [hg, (monic_X_sub_C (1 : ℝ)).natDegree_mul hNm, hNd, natDegree_X_sub_C]; omega
    have hg0 : g.eval 0 ≠ 0 := by
      rw [hg, eval_mul, eval_sub, eval_X, eval_C]
      refine mul_ne_zero (by norm_num) ?_
      rw [hN, nod, Lagrange.eval_nodal, Finset.prod_ne_zero_iff]
      intro i _
      have := (h.2.1 i).1
      intro h0; linarith
    have hg1 : g.eval 1 = 0 := by rw [hg, eval_mul, eval_sub, eval_X, eval_C, sub_self, zero_mul]
    have hgx : ∀ w, g.eval (x w) = 0 := by
      intro w
      refine Fin.lastCases ?_ (fun k => ?_) w
      · have : x (Fin.last m) = 1 := by
          rw [hx]; show axialNodes leg (Fin.last m).succ = 1
          rw [axialNodes, Fin.cons_succ, Fin.snoc_last]
        rw [this, hg1]
      · have : x k.castSucc = leg k := by
          rw [hx]; show axialNodes leg k.castSucc.succ = leg k
          rw [axialNodes, Fin.cons_succ, Fin.snoc_castSucc]
        rw [this, hg, eval_mul, hN, nod_eval, mul_zero]
    set s := (d - R.eval 0) / g.eval 0 with hs
    have hsg : s * g.eval 0 = d - R.eval 0 := by rw [hs]; field_simp
    set q := R + C s * g with hq
    have hqd : q.natDegree ≤ m + 1 :=
      (natDegree_add_le _ _).trans (max_le (by omega) ((natDegree_C_mul_le _ _).trans hgd.le))
    have hqd' : q.degree < (m + 2 : ℕ) :=
      lt_of_le_of_lt degree_le_natDegree (by exact_mod_cast (by omega : q.natDegree < m + 2))
    have hdd : (derivative q).degree < (m + 1 : ℕ) := by
      have := natDegree_derivative_le q
      exact lt_of_le_of_lt degree_le_natDegree (by exact_mod_cast (by omega : (derivative q).natDegree < m + 1))
    have hpd : (q - C d).degree < (m + 2 : ℕ) := lt_of_le_of_lt (degree_sub_le _ _)
      (max_lt hqd' (lt_of_le_of_lt degree_C_le (by exact_mod_cast Nat.succ_pos (m + 1))))
    have hA : (fun w : Fin (m + 1) => ∑ w' : Fin (m + 1), aMat (axialNodes leg) w.succ w'.succ * (c w' - d)) =
        fun w => (derivative q).eval (x w) := by
      funext w
      have hder : derivative (q - C d) = derivative q := by rw [derivative_sub, derivative_C, sub_zero]
      rw [hx, ← hder, ← aMat_apply hX hpd w.succ,
        Fin.sum_univ_succ (f := fun j => aMat (axialNodes leg) w.succ j * (q - C d).eval (axialNodes leg j))]
      have e0 : (q - C d).eval (axialNodes leg 0) = 0 := by
        have : axialNodes leg 0 = 0 := rfl
        rw [this, hq, eval_sub, eval_add, eval_mul, eval_C, eval_C, hsg]
        ring
      rw [e0, mul_zero, zero_add]
      refine Finset.sum_congr rfl fun w' _ => ?_
      have e1 : (q - C d).eval (axialNodes leg w'.succ) = c w' - d := by
        show (q - C d).eval (x w') = c w' - d
        rw [hq, eval_sub, eval_add, eval_mul, hgx, mul_zero, add_zero, hR, interpPoly_eval hxi, eval_C]
      rw [e1]
    rw [hA, gdot_poly, interp_of_degree hxi hdd, ← hR]
    set l := R.coeff m with hl
    have hcq : (derivative q).coeff m = s * (m + 1) := by
      rw [coeff_derivative, hq, coeff_add, coeff_C_mul, coeff_eq_zero_of_natDegree_lt (by omega : R.natDegree < m + 1), zero_add]
      have := hgm.coeff_natDegree
      rw [hgd] at this
      rw [this, mul_one]
    -- integrals
    have i1 : 2 * pint (R * derivative R) = R.eval 1 ^ 2 - R.eval 0 ^ 2 := by
      have := integral_derivative_poly (R * R) 0 1
      change pint _ = _ at this
      rw [derivative_mul, pint_add, mul_comm (derivative R), eval_mul, eval_mul] at this
      linarith
    have i2 : pint (R * derivative g) = -(R.eval 0 * g.eval 0) - pint (derivative R * g) := by
      have := integral_derivative_poly (R * g) 0 1
      change pint _ = _ at this
      rw [derivative_mul, pint_add, eval_mul (p := R), eval_mul (p := R), hg1] at this
      linarith
    have i3 : pint (derivative R * g) = m * l * pint (N * N) := by
      set D := derivative R * (X - C 1) with hD
      have hDd : D.natDegree ≤ m := by
        rcases Nat.eq_zero_or_pos m with h0 | h0
        · have : derivative R = 0 := by
            rw [derivative_eq_zero]; omega
          rw [hD, this, zero_mul]; simp
        · refine natDegree_mul_le.trans ?_
          have := natDegree_derivative_le R
          rw [natDegree_X_sub_C]; omega
      have hDc : D.coeff m = m * l := by
        rcases Nat.eq_zero_or_pos m with h0 | h0
        · have : derivative R = 0 := by
            rw [derivative_eq_zero]; omega
          rw [hD, this, zero_mul, h0]; simp
        · obtain ⟨k, rfl⟩ : ∃ k, m = k + 1 := ⟨m - 1, by omega⟩
          rw [hD, mul_sub, coeff_sub, coeff_mul_X, coeff_mul_C, coeff_derivative, coeff_derivative,
            coeff_eq_zero_of_natDegree_lt (by omega : R.natDegree < k + 1 + 1), hl]
          push_cast
          ring
      have hrest : (D - C (m * l) * N).degree < (m : ℕ) := by
        rw [degree_lt_iff_coeff_zero]
        intro k hk
        rw [coeff_sub, coeff_C_mul]
        rcases hk.eq_or_lt with h0 | h0
        · have := hNm.coeff_natDegree
          rw [hNd] at this
          rw [← h0, hDc, this]; ring
        · rw [coeff_eq_zero_of_natDegree_lt (by omega : D.natDegree < k), coeff_eq_zero_of_natDegree_lt (by omega : N.natDegree < k)]
          ring
      have ho := legendre_orth h hrest
      have e : derivative R * g = C (m * l) * (N * N) + N * (D - C (m * l) * N) := by
        rw [hg, hD]; ring
      rw [e, pint_add, pint_C_mul, ho, add_zero]
    have i4 : pint (R * derivative q) = pint (R * derivative R) + s * pint (R * derivative g) := by
      rw [hq, derivative_add, derivative_C_mul, mul_add, pint_add, ← pint_C_mul]
      congr 2
      ring
    have hγ1 : γ * (m + 1) = m * pint (N * N) := by rw [hγ]; field_simp
    rw [hcq, i4, i2, i3]
    have hlast : R.eval 1 = c (Fin.last m) := by
      have h1 : x (Fin.last m) = 1 := by
        rw [hx]; show axialNodes leg (Fin.last m).succ = 1
        rw [axialNodes, Fin.cons_succ, Fin.snoc_last]
      rw [← interpPoly_eval hxi c (Fin.last m), h1]
    rw [← hlast]
    linear_combination i1 / 2 - R.eval 0 * hsg + l * s * hγ1

/-- On a space of finite dimension a definite quadratic form dominates every other one. -/
theorem quad_dominates {E : Type} [NormedAddCommGroup E] [NormedSpace ℝ E] [ProperSpace E] {Q R : E → ℝ} (hQ : Continuous Q) (hR : Continuous R)
    (hpos : ∀ u, 0 ≤ Q u) (hdef : ∀ u, Q u = 0 → u = 0) (hQs : ∀ (c : ℝ) u, Q (c • u) = c ^ 2 * Q u)
    (hRs : ∀ (c : ℝ) u, R (c • u) = c ^ 2 * R u) : ∃ k : ℝ, 0 < k ∧ ∀ u, R u ≤ k * Q u := by
  have hne : ∀ u ∈ Metric.sphere (0 : E) 1, Q u ≠ 0 := fun u hu h0 => by
    rw [hdef u h0, mem_sphere_zero_iff_norm, norm_zero] at hu
    exact zero_ne_one hu
  obtain ⟨C, hC⟩ := (isCompact_sphere (0 : E) 1).exists_bound_of_continuousOn (f := fun u => R u / Q u) (hR.continuousOn.div hQ.continuousOn hne)
  refine ⟨max C 1, lt_max_of_lt_right one_pos, fun u => ?_⟩
  by_cases hu : u = 0
  · have h1 := hRs 0 u
    have h2 := hQs 0 u
    rw [zero_smul] at h1 h2
    rw [hu, h1, h2]
    simp
  · have hn : 0 < ‖u‖ := norm_pos_iff.2 hu
    set v := ‖u‖⁻¹ • u with hv
    have hs : v ∈ Metric.sphere (0 : E) 1 := by
      rw [mem_sphere_zero_iff_norm, hv, norm_smul, norm_inv, norm_norm, inv_mul_cancel₀ hn.ne']
    have huv : u = ‖u‖ • v := by rw [hv, smul_smul, mul_inv_cancel₀ hn.ne', one_smul]
    have hq : 0 < Q v := lt_of_le_of_ne (hpos v) (hne v hs).symm
    have h1 := (le_abs_self _).trans (hC v hs)
    rw [div_le_iff₀ hq] at h1
    rw [huv, hRs, hQs]
    have h2 := h1.trans (mul_le_mul_of_nonneg_right (le_max_left C 1) hq.le)
    nlinarith [sq_nonneg ‖u‖, mul_le_mul_of_nonneg_left h2 (sq_nonneg ‖u‖)]

section
variable {r m : ℕ} {a β f μ κ : ℝ} {jac : Fin r → ℝ} {B : Fin (r + 1) → Fin (r + 1) → ℝ} {W : Fin (r + 1) → ℝ}
  {A : Fin (m + 2) → Fin (m + 2) → ℝ} {G : Fin (m + 1) → Fin (m + 1) → ℝ}

theorem gdot_lin {z : ℕ} {G : Fin z → Fin z → ℝ} (c p q : Fin z → ℝ) (d : ℝ) : gdot G c (fun w => p w - d * q w) = gdot G c p - d * gdot G c q := by
  unfold gdot
  rw [Finset.mul_sum, ← Finset.sum_sub_distrib]
  refine Finset.sum_congr rfl fun i _ => ?_
  rw [Finset.mul_sum, ← Finset.sum_sub_distrib]
  exact Finset.sum_congr rfl fun j _ => by ring

theorem cdot_lin {z : ℕ} {G : Fin z → Fin z → ℝ} (u v w : ColExc r z) (d : ℝ) : cdot a μ G W u (v - d • w) = cdot a μ G W u v - d * cdot a μ G W u w := by
  unfold cdot
  rw [Finset.mul_sum, ← Finset.sum_sub_distrib]
  refine Finset.sum_congr rfl fun i _ => ?_
  rw [Finset.mul_sum, ← Finset.sum_sub_distrib]
  refine Finset.sum_congr rfl fun j _ => ?_
  have := tdot_lin (a := a) (μ := μ) (W := W) 1 (-d) (v j) (w j) (u i)
  rw [one_smul, one_mul, neg_smul, ← sub_eq_add_neg] at this
  rw [Pi.sub_apply, Pi.smul_apply, tdot_comm, this, tdot_comm (u i) (v j), tdot_comm (u i) (w j)]
  ring

theorem cdot_scale {z : ℕ} {G : Fin z → Fin z → ℝ} (c e : ℝ) (u v : ColExc r z) : cdot a μ G W (c • u) (e • v) = c * e * cdot a μ G W u v := by
  unfold cdot
  rw [Finset.mul_sum]
  refine Finset.sum_congr rfl fun i _ => ?_
  rw [Finset.mul_sum]
  refine Finset.sum_congr rfl fun j _ => ?_
  have h1 := tdot_lin (a := a) (μ := μ) (W := W) c 0 (u i) 0 (e • v j)
  have h2 := tdot_lin (a := a) (μ := μ) (W := W) e 0 (v j) 0 (u i)
  rw [zero_smul, add_zero, zero_mul, add_zero] at h1 h2
  rw [Pi.smul_apply, Pi.smul_apply, h1, tdot_comm (u i), h2, tdot_comm (v j)]
  ring

/-- An excess of the influent alone, in a column exhausted by it, moves the water only. -/
theorem colCL_full (g : Spec.BeadGrid jac B W) (ha : a ≠ 0) (w : Fin (m + 1)) :
    colCL a β f μ κ A B W (fun _ => (fun _ => 1 / a, 1)) w = (0, -(κ * ∑ w' : Fin (m + 1), A w.succ w'.succ)) := by
  rw [colCL_apply, tank_rest g (fun _ _ => rfl) (by rw [mul_one_div, div_self ha])]
  simp

/-- The energy grows by no more than the influent brings, less what the effluent takes. -/
theorem cdot_push (g : Spec.BeadGrid jac B W) (hG : AxialForm A G) (hP : PassiveForm A G) (ha : 0 < a) (hβ : 0 < β) (hf : 0 < f)
    (hμ : 0 < μ) (hκ : 0 < κ) (u : ColExc r (m + 1)) (d : ℝ) :
    2 * cdot a μ G W u (colCL a β f μ κ A B W u - d • colCL a β f μ κ A B W (fun _ => (fun _ => 1 / a, 1))) ≤
      κ * (d ^ 2 - (u (Fin.last m)).2 ^ 2) := by
  rw [cdot_lin, cdot_rate g]
  have e : cdot a μ G W u (colCL a β f μ κ A B W (fun _ => (fun _ => 1 / a, 1))) =
      -(κ * gdot G (fun i => (u i).2) (fun w => ∑ w' : Fin (m + 1), A w.succ w'.succ)) := by
    rw [cdot_parts]
    simp only [colCL_full g ha.ne']
    have z1 : ∀ c : Fin (m + 1) → ℝ, gdot G c (fun _ => 0) = 0 := fun c => by simp [gdot]
    simp only [Pi.zero_apply, z1, mul_zero, Finset.sum_const_zero, zero_add]
    unfold gdot
    rw [Finset.mul_sum, ← Finset.sum_neg_distrib]
    refine Finset.sum_congr rfl fun i _ => ?_
    rw [Finset.mul_sum, ← Finset.sum_neg_distrib]
    exact Finset.sum_congr rfl fun j _ => by ring
  rw [e]
  have h1 := (colLoss_nonneg (β := β) (f := f) g hG ha hβ hf hμ u).1
  have h2 := mul_le_mul_of_nonneg_left (hP (fun i => (u i).2) d) hκ.le
  have h3 : gdot G (fun i => (u i).2) (fun w => ∑ w' : Fin (m + 1), A w.succ w'.succ * ((u w').2 - d)) =
      gdot G (fun i => (u i).2) (fun w => ∑ w' : Fin (m + 1), A w.succ w'.succ * (u w').2) -
        d * gdot G (fun i => (u i).2) (fun w => ∑ w' : Fin (m + 1), A w.succ w'.succ) := by
    rw [← gdot_lin]
    congr 1
    funext w
    rw [Finset.mul_sum, ← Finset.sum_sub_distrib]
    exact Finset.sum_congr rfl fun j _ => by ring
  rw [h3] at h2
  nlinarith

theorem cdot_deriv {z : ℕ} {A : Fin (z + 1) → Fin (z + 1) → ℝ} {G : Fin z → Fin z → ℝ} (hG : AxialForm A G) {x : ℝ → ColExc r z} {v : ColExc r z}
    {S : Set ℝ} {t : ℝ} (hx : HasDerivWithinAt x v S t) : HasDerivWithinAt (fun t => cdot a μ G W (x t) (x t)) (2 * cdot a μ G W (x t) v) S t := by
  have hd : HasDerivWithinAt (fun t => cdot a μ G W (x t) (x t))
      (∑ i, ∑ j, G i j * (tdot a μ W (v i) (x t j) + tdot a μ W (x t i) (v j))) S t := by
    unfold cdot
    refine HasDerivWithinAt.fun_sum fun i _ => HasDerivWithinAt.fun_sum fun j _ => HasDerivWithinAt.const_mul _ ?_
    obtain ⟨x1, x2⟩ := tank_parts (hasDerivWithinAt_pi.1 hx i)
    obtain ⟨y1, y2⟩ := tank_parts (hasDerivWithinAt_pi.1 hx j)
    have h1 := (wdot_deriv (W := W) (hasDerivWithinAt_pi.2 x1) (hasDerivWithinAt_pi.2 y1)).const_mul (μ * a)
    have h2 := h1.add (x2.mul y2)
    unfold tdot
    refine h2.congr_deriv ?_
    ring
  refine hd.congr_deriv ?_
  have e : ∑ i, ∑ j, G i j * (tdot a μ W (v i) (x t j) + tdot a μ W (x t i) (v j)) = cdot a μ G W v (x t) + cdot a μ G W (x t) v := by
    unfold cdot
    simp only [mul_add, Finset.sum_add_distrib]
  rw [e, cdot_comm hG]
  ring

/-- Balance of energy over a run pushed by an influent excess `d`. -/
theorem col_balance (g : Spec.BeadGrid jac B W) (hG : AxialForm A G) (hP : PassiveForm A G) (ha : 0 < a) (hβ : 0 < β) (hf : 0 < f)
    (hμ : 0 < μ) (hκ : 0 < κ) {x : ℝ → ColExc r (m + 1)} {d : ℝ → ℝ} {T : ℝ} (hT : 0 ≤ T) (hd : ContinuousOn d (Icc 0 T))
    (hx : ∀ t ∈ Icc 0 T, HasDerivWithinAt x (colCL a β f μ κ A B W (x t) - d t • colCL a β f μ κ A B W (fun _ => (fun _ => 1 / a, 1))) (Icc 0 T) t) :
    cdot a μ G W (x T) (x T) + κ * ∫ t in (0 : ℝ)..T, (x t (Fin.last m)).2 ^ 2 ≤ cdot a μ G W (x 0) (x 0) + κ * ∫ t in (0 : ℝ)..T, d t ^ 2 := by
  have hxc : ContinuousOn x (Icc 0 T) := fun t ht => (hx t ht).continuousWithinAt
  have ho : ContinuousOn (fun t => (x t (Fin.last m)).2 ^ 2) (Icc 0 T) := by fun_prop
  have hd2 : ContinuousOn (fun t => d t ^ 2) (Icc 0 T) := hd.pow 2
  have hE : ∀ t ∈ Icc 0 T, HasDerivWithinAt (fun t => cdot a μ G W (x t) (x t)) _ (Icc 0 T) t := fun t ht => cdot_deriv hG (hx t ht)
  have := intervalIntegral.sub_le_integral_of_hasDeriv_right_of_le hT (fun t ht => (hE t ht).continuousWithinAt)
    (fun t ht => ((hE t (Ioo_subset_Icc_self ht)).hasDerivAt (Icc_mem_nhds ht.1 ht.2)).hasDerivWithinAt)
    (φ := fun t => κ * (d t ^ 2 - (x t (Fin.last m)).2 ^ 2)) ((continuousOn_const.mul (hd2.sub ho)).integrableOn_Icc)
    (fun t _ => cdot_push g hG hP ha hβ hf hμ hκ (x t) (d t))
  rw [intervalIntegral.integral_const_mul, intervalIntegral.integral_sub (hd2.intervalIntegrable_of_Icc hT) (ho.intervalIntegrable_of_Icc hT)] at this
  linarith

/-- Without a push the energy does not vanish faster than at some rate. -/
theorem col_keeps (g : Spec.BeadGrid jac B W) (hG : AxialForm A G) (ha : 0 < a) (hμ : 0 < μ) : ∃ Λ : ℝ, 0 < Λ ∧
    ∀ (x : ℝ → ColExc r (m + 1)) (T : ℝ), 0 ≤ T → (∀ t ∈ Icc 0 T, HasDerivWithinAt x (colCL a β f μ κ A B W (x t)) (Icc 0 T) t) →
      Real.exp (-(Λ * T)) * cdot a μ G W (x 0) (x 0) ≤ cdot a μ G W (x T) (x T) := by
  have hc : Continuous fun u : ColExc r (m + 1) => cdot a μ G W u u := by
    unfold cdot tdot wdot
    fun_prop
  have hm : Continuous fun u : ColExc r (m + 1) => -(2 * cdot a μ G W u (colCL a β f μ κ A B W u)) := by
    unfold cdot tdot wdot
    fun_prop
  obtain ⟨Λ, hΛ, hk⟩ := quad_dominates hc hm (fun u => (cdot_pos g hG ha hμ u).1) (fun u => (cdot_pos g hG ha hμ u).2)
    (fun c u => by rw [cdot_scale]; ring) (fun c u => by rw [map_smul, cdot_scale]; ring)
  refine ⟨Λ, hΛ, fun x T hT hx => ?_⟩
  have hE : ∀ t ∈ Icc 0 T, HasDerivWithinAt (fun t => Real.exp (Λ * t) * cdot a μ G W (x t) (x t))
      (Real.exp (Λ * t) * (Λ * 1) * cdot a μ G W (x t) (x t) + Real.exp (Λ * t) * (2 * cdot a μ G W (x t) (colCL a β f μ κ A B W (x t)))) (Icc 0 T) t :=
    fun t ht => (((hasDerivAt_id t).const_mul Λ).exp.hasDerivWithinAt).mul (cdot_deriv hG (hx t ht))
  have hmono : MonotoneOn (fun t => Real.exp (Λ * t) * cdot a μ G W (x t) (x t)) (Icc 0 T) := by
    refine monotoneOn_of_deriv_nonneg (convex_Icc 0 T) (fun t ht => (hE t ht).continuousWithinAt) ?_ ?_
    · rw [interior_Icc]
      exact fun t ht => (((hE t (Ioo_subset_Icc_self ht)).hasDerivAt (Icc_mem_nhds ht.1 ht.2))).differentiableAt.differentiableWithinAt
    · rw [interior_Icc]
      intro t ht
      rw [((hE t (Ioo_subset_Icc_self ht)).hasDerivAt (Icc_mem_nhds ht.1 ht.2)).deriv]
      have := hk (x t)
      nlinarith [Real.exp_pos (Λ * t), mul_nonneg (Real.exp_pos (Λ * t)).le (by linarith : 0 ≤ Λ * cdot a μ G W (x t) (x t) +
        2 * cdot a μ G W (x t) (colCL a β f μ κ A B W (x t)))]
  have h1 := hmono ⟨le_rfl, hT⟩ ⟨hT, le_rfl⟩ hT
  simp only [mul_zero, Real.exp_zero, one_mul] at h1
  have h2 := mul_le_mul_of_nonneg_left h1 (Real.exp_pos (-(Λ * T))).le
  rwa [← mul_assoc, ← Real.exp_add, neg_add_cancel, Real.exp_zero, one_mul] at h2

end

end WTM
