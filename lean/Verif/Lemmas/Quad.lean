import Mathlib.Algebra.Polynomial.Expand
import Verif.Lemmas.Colloc
import Verif.Spec.Colloc

/-! Quadrature: moments, even polynomials, and the weight formula of `recur_colloc_symm`. -/
set_option autoImplicit false
namespace WTM
open Polynomial BigOperators

/-- `∫₀¹ x^(a-1) g(x²) dx` as a functional on coefficients. -/
noncomputable def mom (a : ℝ) : ℝ[X] →ₗ[ℝ] ℝ :=
  Polynomial.lsum (fun k => ((1 / (a + 2 * k) : ℝ)) • (LinearMap.id : ℝ →ₗ[ℝ] ℝ))

theorem mom_monomial (a : ℝ) (k : ℕ) (c : ℝ) : mom a (monomial k c) = c / (a + 2 * k) := by
  simp [mom, Polynomial.lsum, div_eq_inv_mul]

theorem mom_ibp {a : ℝ} (ha : 0 < a) (g : ℝ[X]) : mom a (C a * g + 2 * X * derivative g) = g.eval 1 := by
  induction g using Polynomial.induction_on' with
  | add p q hp hq =>
    rw [eval_add, ← hp, ← hq, ← map_add]
    congr 1
    rw [derivative_add]; ring
  | monomial k c =>
    have h : (a + 2 * (k:ℝ)) ≠ 0 := by positivity
    have e : C a * monomial k c + 2 * X * derivative (monomial k c) = monomial k (a * c + 2 * k * c) := by
      rw [derivative_monomial]
      rcases k with _ | k
      · simp
      · simp only [Nat.add_sub_cancel]
        have : (2 * X : ℝ[X]) = monomial 1 2 := by
          rw [← C_mul_X_eq_monomial]; rfl
        rw [this, monomial_mul_monomial, C_mul_monomial, add_comm 1 k, ← map_add]
        congr 1; push_cast; ring
    rw [e, mom_monomial]
    simp only [eval_monomial, one_pow, mul_one]
    field_simp

open intervalIntegral in
/-- Integral of a polynomial against a power. -/
theorem integral_rpow_poly {s : ℝ} (hs : 0 < s) (f : ℝ[X]) :
    IntervalIntegrable (fun x : ℝ => x ^ (s - 1) * f.eval x) MeasureTheory.volume 0 1 ∧
    ∫ x in (0:ℝ)..1, x ^ (s - 1) * f.eval x = f.sum (fun k c => c / (s + k)) := by
  induction f using Polynomial.induction_on' with
  | add p q hp hq =>
    have : (fun x : ℝ => x ^ (s - 1) * (p + q).eval x) =
        fun x => x ^ (s - 1) * p.eval x + x ^ (s - 1) * q.eval x := by
      funext x; rw [eval_add]; ring
    rw [this]
    refine ⟨hp.1.add hq.1, ?_⟩
    rw [integral_add hp.1 hq.1, hp.2, hq.2, sum_add_index]
    · intro i; simp
    · intro i b c; ring
  | monomial k c =>
    have hk : (-1:ℝ) < s - 1 + k := by
      have : (0:ℝ) ≤ k := Nat.cast_nonneg k
      linarith
    have e : Set.EqOn (fun x : ℝ => c * x ^ (s - 1 + k)) (fun x => x ^ (s - 1) * (monomial k c).eval x)
        (Set.uIoc 0 1) := by
      intro x hx
      rw [Set.uIoc_of_le zero_le_one] at hx
      simp only [eval_monomial]
      rw [Real.rpow_add_natCast hx.1.ne']; ring
    have hi : IntervalIntegrable (fun x : ℝ => c * x ^ (s - 1 + k)) MeasureTheory.volume 0 1 :=
      (intervalIntegrable_rpow' hk).const_mul c
    refine ⟨hi.congr e, ?_⟩
    rw [← integral_congr_ae (Filter.Eventually.of_forall fun x hx => e hx), integral_const_mul,
      integral_rpow (Or.inl hk), sum_monomial_index]
    · have : s + (k:ℝ) ≠ 0 := by positivity
      rw [Real.one_rpow, Real.zero_rpow (by rw [show s - 1 + (k:ℝ) + 1 = s + k by ring]; exact this)]
      rw [show s - 1 + (k:ℝ) + 1 = s + k by ring]
      ring
    · simp

theorem radial_expand {a : ℝ} (ha : 0 < a) (g : ℝ[X]) :
    Spec.radialIntegral a (expand ℝ 2 g) = mom a g := by
  unfold Spec.radialIntegral
  rw [(integral_rpow_poly ha _).2]
  induction g using Polynomial.induction_on' with
  | add p q hp hq =>
    rw [map_add, map_add, sum_add_index, hp, hq]
    · intro i; simp
    · intro i b c; ring
  | monomial k c =>
    rw [expand_monomial, mom_monomial, sum_monomial_index]
    · push_cast; ring
    · simp

theorem sum_half (a : ℝ) (g : ℝ[X]) : g.sum (fun k c => c / (a / 2 + k)) = 2 * mom a g := by
  induction g using Polynomial.induction_on' with
  | add p q hp hq =>
    rw [sum_add_index, hp, hq, map_add]
    · ring
    · intro i; simp
    · intro i b c; ring
  | monomial k c =>
    rw [mom_monomial, sum_monomial_index]
    · have : a + 2 * (k:ℝ) = 2 * (a / 2 + k) := by ring
      rw [this]
      by_cases h : a / 2 + (k:ℝ) = 0
      · simp [h]
      · field_simp
    · simp

/-- Orthogonality in terms of moments. -/
theorem jacobi_mom {m : ℕ} {a : ℝ} (ha : 0 < a) {jac : Fin m → ℝ}
    (h : Spec.ShJacobiRoots m (a / 2 + 1) (a / 2) jac) {g : ℝ[X]} (hg : g.degree < m) :
    mom a ((X - C 1) * nod jac * g) = 0 := by
  have h3 := h.2.2 g hg
  have e : (fun u : ℝ => (1 - u) ^ (a / 2 + 1 - a / 2) * u ^ (a / 2 - 1) * ((∏ i, (u - jac i)) * g.eval u))
      = fun u => u ^ (a / 2 - 1) * (-((X - C 1) * nod jac * g)).eval u := by
    funext u
    have : a / 2 + 1 - a / 2 = (1:ℝ) := by ring
    rw [this, Real.rpow_one]
    simp only [eval_neg, eval_mul, eval_sub, eval_X, eval_C, nod, Lagrange.eval_nodal]
    ring
  rw [e, (integral_rpow_poly (by positivity) _).2, sum_half] at h3
  have : mom a (-((X - C 1) * nod jac * g)) = 0 := by linarith
  simpa using this

/-- Even polynomials are polynomials in `x²`. -/
theorem even_expand {f : ℝ[X]} (h : Spec.Even f) : ∃ g, f = expand ℝ 2 g ∧ 2 * g.natDegree ≤ f.natDegree := by
  have hc : f.comp (C (-1) * X) = f := by
    apply Polynomial.funext
    intro t
    rw [eval_comp]; simpa using h t
  have hodd : ∀ k, ¬ 2 ∣ k → f.coeff k = 0 := by
    intro k hk
    have h1 := congrArg (fun p => p.coeff k) hc
    simp only [comp_C_mul_X_coeff] at h1
    have : Odd k := by rw [← Nat.not_even_iff_odd, even_iff_two_dvd]; exact hk
    rw [this.neg_one_pow] at h1
    linarith
  have e : f = expand ℝ 2 (contract 2 f) := by
    ext k
    rw [coeff_expand two_pos, coeff_contract two_ne_zero]
    by_cases hk : 2 ∣ k
    · rw [if_pos hk, Nat.div_mul_cancel hk]
    · rw [if_neg hk, hodd k hk]
  refine ⟨contract 2 f, e, ?_⟩
  conv_rhs => rw [e]
  rw [natDegree_expand]; omega

section
variable {m : ℕ} {a : ℝ} {jac : Fin m → ℝ}

theorem radialNodes_inj (h : Function.Injective jac) (h1 : ∀ i, jac i < 1) :
    Function.Injective (radialNodes jac) := by
  unfold radialNodes
  intro i j hij
  induction i using Fin.lastCases with
  | last =>
    induction j using Fin.lastCases with
    | last => rfl
    | cast j => simp only [Fin.snoc_last, Fin.snoc_castSucc] at hij; exact absurd hij.symm (h1 j).ne
  | cast i =>
    induction j using Fin.lastCases with
    | last => simp only [Fin.snoc_last, Fin.snoc_castSucc] at hij; exact absurd hij (h1 i).ne
    | cast j => simp only [Fin.snoc_castSucc] at hij; rw [h hij]

theorem radialNodes_pos (h1 : ∀ i, 0 < jac i) (i : Fin (m + 1)) : 0 < radialNodes jac i := by
  unfold radialNodes
  induction i using Fin.lastCases with
  | last => simp
  | cast i => simpa using h1 i

theorem nod_radial : nod (radialNodes jac) = (X - C 1) * nod jac := by
  unfold nod radialNodes
  rw [Lagrange.nodal_eq, Lagrange.nodal_eq, Fin.prod_univ_castSucc]
  simp only [Fin.snoc_castSucc, Fin.snoc_last]
  ring

/-- Interpolatory quadrature on the radial nodes is exact to degree `2m`. -/
theorem quad_exact (ha : 0 < a) (h : Spec.ShJacobiRoots m (a / 2 + 1) (a / 2) jac) {f : ℝ[X]}
    (hf : f.natDegree ≤ 2 * m) :
    mom a f = ∑ i, mom a (lag (radialNodes jac) i) * f.eval (radialNodes jac i) := by
  have hx := radialNodes_inj h.1 (fun i => (h.2.1 i).2)
  set u := radialNodes jac with hu
  have hmon : (nod u).Monic := Lagrange.nodal_monic
  have hdeg : (nod u).natDegree = m + 1 := by
    unfold nod; rw [Lagrange.natDegree_nodal]; simp
  have hq : (f /ₘ nod u).degree < m := by
    by_cases hd : f.degree < (nod u).degree
    · rw [(divByMonic_eq_zero_iff hmon).2 hd]
      rw [degree_zero]; exact WithBot.bot_lt_coe _
    · have h1 : (nod u).natDegree ≤ f.natDegree := natDegree_le_natDegree (not_lt.1 hd)
      have h2 : 0 < m := by omega
      apply lt_of_le_of_lt degree_le_natDegree
      rw [natDegree_divByMonic _ hmon]
      exact_mod_cast (by omega : f.natDegree - (nod u).natDegree < m)
  have hr : (f %ₘ nod u).degree < ((m + 1 : ℕ) : WithBot ℕ) := by
    have := degree_modByMonic_lt f hmon
    rwa [degree_eq_natDegree hmon.ne_zero, hdeg] at this
  have h0 : mom a (nod u * (f /ₘ nod u)) = 0 := by
    have e : nod u = (X - C 1) * nod jac := nod_radial
    conv_lhs => arg 2; arg 1; rw [e]
    exact jacobi_mom ha h hq
  have hev : ∀ i, (f %ₘ nod u).eval (u i) = f.eval (u i) := by
    intro i
    conv_rhs => rw [← modByMonic_add_div f (nod u)]
    rw [eval_add, eval_mul]
    have : (nod u).eval (u i) = 0 := Lagrange.eval_nodal_at_node (Finset.mem_univ i)
    rw [this]; ring
  conv_lhs => rw [← modByMonic_add_div f (nod u)]
  rw [map_add, h0, add_zero, eq_sum_lag hx hr, map_sum]
  apply Finset.sum_congr rfl
  intro i _
  rw [hev, ← smul_eq_C_mul, map_smul, smul_eq_mul, mul_comm]

theorem lag_natDegree {n : ℕ} {x : Fin n → ℝ} (hx : Function.Injective x) (j : Fin n) :
    (lag x j).natDegree = n - 1 := by
  unfold lag
  rw [Lagrange.natDegree_basis hx.injOn (Finset.mem_univ j)]
  simp

/-- The products `w_i u_i P'(u_i)^2` are all equal. -/
theorem weight_const (ha : 0 < a) (h : Spec.ShJacobiRoots m (a / 2 + 1) (a / 2) jac)
    (i k : Fin (m + 1)) :
    mom a (lag (radialNodes jac) i) * (radialNodes jac i * (px (radialNodes jac) i).1 ^ 2) =
    mom a (lag (radialNodes jac) k) * (radialNodes jac k * (px (radialNodes jac) k).1 ^ 2) := by
  have hx := radialNodes_inj h.1 (fun i => (h.2.1 i).2)
  by_cases hik : i = k
  · rw [hik]
  set u := radialNodes jac with hu
  set g := lag u i * lag u k with hg
  have hgd : (lag u i * lag u k).natDegree ≤ 2 * m := by
    refine natDegree_mul_le.trans ?_
    rw [lag_natDegree hx, lag_natDegree hx]; omega
  have hd : (C a * g + 2 * X * derivative g).natDegree ≤ 2 * m := by
    refine (natDegree_add_le _ _).trans (max_le ?_ ?_)
    · exact (natDegree_C_mul_le _ _).trans hgd
    · by_cases hd0 : g.natDegree = 0
      · rw [derivative_of_natDegree_zero hd0]; simp
      · refine natDegree_mul_le.trans ?_
        have h1 : (2 * X : ℝ[X]).natDegree ≤ 1 := by
          have : (2 * X : ℝ[X]) = C 2 * X := rfl
          rw [this]; exact (natDegree_C_mul_le _ _).trans natDegree_X_le
        have h2 := natDegree_derivative_lt hd0
        have : g.natDegree ≤ 2 * m := hgd
        omega
  have hq := quad_exact ha h hd
  rw [mom_ibp ha] at hq
  have hlast : u (Fin.last m) = 1 := by rw [hu]; simp [radialNodes]
  have hg0 : ∀ l, g.eval (u l) = 0 := by
    intro l
    rw [hg, eval_mul]
    by_cases hl : l = i
    · subst hl; rw [lag_ne hik, mul_zero]
    · rw [lag_ne hl, zero_mul]
  have hg1 : g.eval 1 = 0 := by rw [← hlast]; exact hg0 _
  have hev : ∀ l, (C a * g + 2 * X * derivative g).eval (u l) =
      (if l = k then 2 * u k * aMat u k i else 0) + (if l = i then 2 * u i * aMat u i k else 0) := by
    intro l
    have : (2 * X : ℝ[X]).eval (u l) = 2 * u l := by
      have : (2 * X : ℝ[X]) = C 2 * X := rfl
      rw [this]; simp
    rw [eval_add, eval_mul (p := C a), hg0, mul_zero, zero_add, eval_mul, this, hg, derivative_mul, eval_add,
      eval_mul, eval_mul]
    by_cases h1 : l = k
    · subst h1
      rw [if_pos rfl, if_neg (Ne.symm hik), lag_self hx, lag_ne (Ne.symm hik), aMat_eq hx]; ring
    · by_cases h2 : l = i
      · subst h2
        rw [if_neg h1, if_pos rfl, lag_self hx, lag_ne h1, aMat_eq hx]; ring
      · rw [if_neg h1, if_neg h2, lag_ne h1, lag_ne h2]; ring
  rw [hg1] at hq
  simp only [← hu, hev, mul_add, Finset.sum_add_distrib, mul_ite, mul_zero, Finset.sum_ite_eq',
    Finset.mem_univ, if_true] at hq
  unfold aMat at hq
  rw [if_neg (Ne.symm hik), if_neg hik] at hq
  have p1 := px_ne hx i
  have p2 := px_ne hx k
  have d1 : u i - u k ≠ 0 := sub_ne_zero.2 (fun h' => hik (hx h'))
  have d2 : u k - u i ≠ 0 := sub_ne_zero.2 (fun h' => hik (hx h').symm)
  have d3 : u k - u i = -(u i - u k) := by ring
  rw [d3] at hq
  field_simp at hq
  linarith

/-- The weights of the code are the interpolatory weights. -/
theorem symmW_eq (ha : 0 < a) (h : Spec.ShJacobiRoots m (a / 2 + 1) (a / 2) jac) (i : Fin (m + 1)) :
    symmW a (radialNodes jac) i = mom a (lag (radialNodes jac) i) := by
  have hx := radialNodes_inj h.1 (fun i => (h.2.1 i).2)
  have hp := radialNodes_pos (fun i => (h.2.1 i).1)
  have hc := weight_const ha h i
  have h1 : ∑ k, mom a (lag (radialNodes jac) k) = 1 / a := by
    have := quad_exact ha h (f := 1) (by simp)
    simp only [eval_one, mul_one] at this
    rw [← this]
    have e : (1 : ℝ[X]) = monomial 0 1 := rfl
    rw [e, mom_monomial]; simp
  set u := radialNodes jac with hu
  have hpos : ∀ k, 0 < u k * (px u k).1 ^ 2 := fun k =>
    mul_pos (hp k) (by have := px_ne hx k; positivity)
  have h2 : ∀ k, mom a (lag u k) = mom a (lag u i) * (u i * (px u i).1 ^ 2) * (1 / (u k * (px u k).1 ^ 2)) := by
    intro k
    rw [hc k]
    have := (hpos k).ne'
    rw [mul_assoc, mul_one_div_cancel this, mul_one]
  have h3 : mom a (lag u i) * (u i * (px u i).1 ^ 2) * ∑ k, 1 / (u k * (px u k).1 ^ 2) = 1 / a := by
    rw [Finset.mul_sum, ← h1]
    exact Finset.sum_congr rfl (fun k _ => (h2 k).symm)
  have hs : 0 < ∑ k, 1 / (u k * (px u k).1 ^ 2) :=
    Finset.sum_pos (fun k _ => one_div_pos.2 (hpos k)) Finset.univ_nonempty
  unfold symmW
  have h4 := (hpos i).ne'
  generalize ∑ k, 1 / (u k * (px u k).1 ^ 2) = S at *
  generalize u i * (px u i).1 ^ 2 = A at *
  have hS := hs.ne'
  have ha' := ha.ne'
  field_simp at h3 ⊢
  linarith

end

end WTM
