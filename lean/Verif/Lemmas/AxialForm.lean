import Verif.Lemmas.Energy
import Verif.Lemmas.Gauss
import Mathlib.Tactic.LinearCombination

/-! The axial operator on one element of Legendre nodes: a product in which it never adds energy, whatever the number of nodes. -/
set_option autoImplicit false
namespace WTM
open Polynomial BigOperators

/-- Product of two profiles. -/
def gdot {z : ℕ} (G : Fin z → Fin z → ℝ) (c d : Fin z → ℝ) : ℝ := ∑ v, ∑ w, G v w * (c v * d w)

/-- What is used of an axial operator with fixed inlet: a product of profiles below the inlet in which it only takes energy away. -/
structure AxialForm {z : ℕ} (A : Fin (z + 1) → Fin (z + 1) → ℝ) (G : Fin z → Fin z → ℝ) : Prop where
  symm : ∀ v w, G v w = G w v
  pos : ∀ c, 0 ≤ gdot G c c
  definite : ∀ c, gdot G c c = 0 → c = 0
  falls : ∀ c, 0 ≤ gdot G c (fun w => ∑ w' : Fin z, A w.succ w'.succ * c w')

theorem gdot_poly {z : ℕ} (x : Fin z → ℝ) (γ : ℝ) (m : ℕ) (c d : Fin z → ℝ) :
    gdot (fun v w => pint (lag x v * lag x w) + γ * ((lag x v).coeff m * (lag x w).coeff m)) c d =
      pint (interpPoly x c * interpPoly x d) + γ * ((interpPoly x c).coeff m * (interpPoly x d).coeff m) := by
  have e1 : pint (interpPoly x c * interpPoly x d) = ∑ v, ∑ w, c v * d w * pint (lag x v * lag x w) := by
    unfold interpPoly
    rw [Finset.sum_mul_sum, pint_sum]
    refine Finset.sum_congr rfl fun v _ => ?_
    rw [pint_sum]
    refine Finset.sum_congr rfl fun w _ => ?_
    rw [← pint_C_mul]
    congr 1
    rw [C_mul]
    ring
  have e2 : (interpPoly x c).coeff m * (interpPoly x d).coeff m = ∑ v, ∑ w, c v * d w * ((lag x v).coeff m * (lag x w).coeff m) := by
    unfold interpPoly
    rw [finsetSum_coeff, finsetSum_coeff, Finset.sum_mul_sum]
    refine Finset.sum_congr rfl fun v _ => Finset.sum_congr rfl fun w _ => ?_
    rw [coeff_C_mul, coeff_C_mul]
    ring
  rw [e1, e2, Finset.mul_sum, ← Finset.sum_add_distrib]
  unfold gdot
  refine Finset.sum_congr rfl fun v _ => ?_
  rw [Finset.mul_sum, ← Finset.sum_add_distrib]
  exact Finset.sum_congr rfl fun w _ => by ring

theorem interp_of_degree {n : ℕ} {x : Fin n → ℝ} (hx : Function.Injective x) {f : ℝ[X]} (hf : f.degree < n) :
    interpPoly x (fun w => f.eval (x w)) = f := (eq_sum_lag hx hf).symm

theorem exists_form {z : ℕ} {A : Fin (z + 1) → Fin (z + 1) → ℝ} {L : (Fin z → ℝ) → ℝ} (G : Fin z → Fin z → ℝ)
    (symm : ∀ v w, G v w = G w v) (pos : ∀ c, 0 ≤ gdot G c c) (definite : ∀ c, gdot G c c = 0 → c = 0) (hL : ∀ c, 0 ≤ L c)
    (hl : ∀ c, gdot G c (fun w => ∑ w' : Fin z, A w.succ w'.succ * c w') = L c) :
    ∃ G, AxialForm A G ∧ ∀ c, gdot G c (fun w => ∑ w' : Fin z, A w.succ w'.succ * c w') = L c :=
  ⟨G, ⟨symm, pos, definite, fun c => by rw [hl]; exact hL c⟩, hl⟩

theorem axialForm_legendre {m : ℕ} {leg : Fin m → ℝ} (h : Spec.ShJacobiRoots m 1 1 leg) :
    ∃ G, AxialForm (aMat (axialNodes leg)) G ∧ ∀ c, gdot G c (fun w => ∑ w' : Fin (m + 1), aMat (axialNodes leg) w.succ w'.succ * c w') =
      ((interpPoly (fun w : Fin (m + 1) => axialNodes leg w.succ) c).eval 1 ^ 2 +
        (interpPoly (fun w : Fin (m + 1) => axialNodes leg w.succ) c).eval 0 ^ 2) / 2 := by
  have hX := axialNodes_inj h.1 h.2.1
  set x : Fin (m + 1) → ℝ := fun w => axialNodes leg w.succ with hx
  have hxi : Function.Injective x := fun v w e => Fin.succ_injective _ (hX e)
  set N := nod leg with hN
  have hNm : N.Monic := nod_monic leg
  have hNd : N.natDegree = m := nod_natDegree leg
  set γ : ℝ := m * pint (N * N) / (m + 1) with hγ
  have hm1 : (m : ℝ) + 1 ≠ 0 := by positivity
  have hNN : 0 < pint (N * N) :=
    pint_pos (mul_ne_zero hNm.ne_zero hNm.ne_zero) fun t _ _ => by rw [eval_mul]; exact mul_self_nonneg _
  have hγ0 : 0 ≤ γ := by positivity
  refine exists_form (fun v w => pint (lag x v * lag x w) + γ * ((lag x v).coeff m * (lag x w).coeff m)) ?_ ?_ ?_ (fun c => by positivity) ?_
  · intro v w
    rw [mul_comm (lag x v), mul_comm ((lag x v).coeff m)]
  · intro c
    rw [gdot_poly]
    refine add_nonneg ?_ (mul_nonneg hγ0 (mul_self_nonneg _))
    by_cases h0 : interpPoly x c = 0
    · rw [h0]; simp [pint]
    · exact (pint_pos (mul_ne_zero h0 h0) fun t _ _ => by rw [eval_mul]; exact mul_self_nonneg _).le
  · intro c hc
    rw [gdot_poly] at hc
    have h2 := mul_nonneg hγ0 (mul_self_nonneg ((interpPoly x c).coeff m))
    have h0 : interpPoly x c = 0 := by
      by_contra h0
      have := pint_pos (mul_ne_zero h0 h0) fun t _ _ => by rw [eval_mul]; exact mul_self_nonneg _
      linarith
    funext w
    rw [← interpPoly_eval hxi c w, h0, eval_zero]
    rfl
  · intro c
    set R := interpPoly x c with hR
    have hRd : R.natDegree ≤ m := interpPoly_natDegree hxi c
    set g := (X - C 1) * N with hg
    have hgm : g.Monic := (monic_X_sub_C 1).mul hNm
    have hgd : g.natDegree = m + 1 := by
      rw [hg, (monic_X_sub_C (1 : ℝ)).natDegree_mul hNm, hNd, natDegree_X_sub_C]; omega
    have hg0 : g.eval 0 ≠ 0 := by
      rw [hg, eval_mul, eval_sub, eval_X, eval_C]
      refine mul_ne_zero (by norm_num) ?_
      rw [hN, nod, Lagrange.eval_nodal, Finset.prod_ne_zero_iff]
      intro i _
      have := (h.2.1 i).1
      intro h0; linarith
    have hg1 : g.eval 1 = 0 := by rw [hg, eval_mul, eval_sub, eval_X, eval_C, sub_self, zero_mul]
    have hgx : ∀ w, g.eval (x w) = 0 := by
      intro w
      refine Fin.lastCases ?_ (fun k => ?_) w
      · have : x (Fin.last m) = 1 := by
          rw [hx]; show axialNodes leg (Fin.last m).succ = 1
          rw [axialNodes, Fin.cons_succ, Fin.snoc_last]
        rw [this, hg1]
      · have : x k.castSucc = leg k := by
          rw [hx]; show axialNodes leg k.castSucc.succ = leg k
          rw [axialNodes, Fin.cons_succ, Fin.snoc_castSucc]
        rw [this, hg, eval_mul, hN, nod_eval, mul_zero]
    set s := -R.eval 0 / g.eval 0 with hs
    have hsg : s * g.eval 0 = -R.eval 0 := by rw [hs]; field_simp
    set q := R + C s * g with hq
    have hqd : q.natDegree ≤ m + 1 :=
      (natDegree_add_le _ _).trans (max_le (by omega) ((natDegree_C_mul_le _ _).trans hgd.le))
    have hqd' : q.degree < (m + 2 : ℕ) :=
      lt_of_le_of_lt degree_le_natDegree (by exact_mod_cast (by omega : q.natDegree < m + 2))
    have hdd : (derivative q).degree < (m + 1 : ℕ) := by
      have := natDegree_derivative_le q
      exact lt_of_le_of_lt degree_le_natDegree (by exact_mod_cast (by omega : (derivative q).natDegree < m + 1))
    have hA : (fun w : Fin (m + 1) => ∑ w' : Fin (m + 1), aMat (axialNodes leg) w.succ w'.succ * c w') =
        fun w => (derivative q).eval (x w) := by
      funext w
      rw [hx, ← aMat_apply hX hqd' w.succ,
        Fin.sum_univ_succ (f := fun j => aMat (axialNodes leg) w.succ j * q.eval (axialNodes leg j))]
      have e0 : q.eval (axialNodes leg 0) = 0 := by
        have : axialNodes leg 0 = 0 := rfl
        rw [this, hq, eval_add, eval_mul, eval_C, hsg, add_neg_cancel]
      rw [e0, mul_zero, zero_add]
      refine Finset.sum_congr rfl fun w' _ => ?_
      have e1 : q.eval (axialNodes leg w'.succ) = c w' := by
        show q.eval (x w') = c w'
        rw [hq, eval_add, eval_mul, hgx, mul_zero, add_zero, hR, interpPoly_eval hxi]
      rw [e1]
    rw [hA, gdot_poly, interp_of_degree hxi hdd, ← hR]
    set l := R.coeff m with hl
    have hcq : (derivative q).coeff m = s * (m + 1) := by
      rw [coeff_derivative, hq, coeff_add, coeff_C_mul, coeff_eq_zero_of_natDegree_lt (by omega : R.natDegree < m + 1), zero_add]
      have := hgm.coeff_natDegree
      rw [hgd] at this
      rw [this, mul_one]
    -- integrals
    have i1 : 2 * pint (R * derivative R) = R.eval 1 ^ 2 - R.eval 0 ^ 2 := by
      have := integral_derivative_poly (R * R) 0 1
      change pint _ = _ at this
      rw [derivative_mul, pint_add, mul_comm (derivative R), eval_mul, eval_mul] at this
      linarith
    have i2 : pint (R * derivative g) = -(R.eval 0 * g.eval 0) - pint (derivative R * g) := by
      have := integral_derivative_poly (R * g) 0 1
      change pint _ = _ at this
      rw [derivative_mul, pint_add, eval_mul (p := R), eval_mul (p := R), hg1] at this
      linarith
    have i3 : pint (derivative R * g) = m * l * pint (N * N) := by
      set D := derivative R * (X - C 1) with hD
      have hDd : D.natDegree ≤ m := by
        rcases Nat.eq_zero_or_pos m with h0 | h0
        · have : derivative R = 0 := by
            rw [derivative_eq_zero]; omega
          rw [hD, this, zero_mul]; simp
        · refine natDegree_mul_le.trans ?_
          have := natDegree_derivative_le R
          rw [natDegree_X_sub_C]; omega
      have hDc : D.coeff m = m * l := by
        rcases Nat.eq_zero_or_pos m with h0 | h0
        · have : derivative R = 0 := by
            rw [derivative_eq_zero]; omega
          rw [hD, this, zero_mul, h0]; simp
        · obtain ⟨k, rfl⟩ : ∃ k, m = k + 1 := ⟨m - 1, by omega⟩
          rw [hD, mul_sub, coeff_sub, coeff_mul_X, coeff_mul_C, coeff_derivative, coeff_derivative,
            coeff_eq_zero_of_natDegree_lt (by omega : R.natDegree < k + 1 + 1), hl]
          push_cast
          ring
      have hrest : (D - C (m * l) * N).degree < (m : ℕ) := by
        rw [degree_lt_iff_coeff_zero]
        intro k hk
        rw [coeff_sub, coeff_C_mul]
        rcases hk.eq_or_lt with h0 | h0
        · have := hNm.coeff_natDegree
          rw [hNd] at this
          rw [← h0, hDc, this]; ring
        · rw [coeff_eq_zero_of_natDegree_lt (by omega : D.natDegree < k), coeff_eq_zero_of_natDegree_lt (by omega : N.natDegree < k)]
          ring
      have ho := legendre_orth h hrest
      have e : derivative R * g = C (m * l) * (N * N) + N * (D - C (m * l) * N) := by
        rw [hg, hD]; ring
      rw [e, pint_add, pint_C_mul, ho, add_zero]
    have i4 : pint (R * derivative q) = pint (R * derivative R) + s * pint (R * derivative g) := by
      rw [hq, derivative_add, derivative_C_mul, mul_add, pint_add, ← pint_C_mul]
      congr 2
      ring
    have hγ1 : γ * (m + 1) = m * pint (N * N) := by rw [hγ]; field_simp
    rw [hcq, i4, i2, i3]
    have : pint (R * derivative R) + s * (-(R.eval 0 * g.eval 0) - m * l * pint (N * N)) + γ * (l * (s * (m + 1))) =
        (R.eval 1 ^ 2 + R.eval 0 ^ 2) / 2 := by
      linear_combination i1 / 2 - R.eval 0 * hsg + l * s * hγ1
    rw [this]

end WTM
