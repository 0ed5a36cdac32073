import Mathlib.LinearAlgebra.Vandermonde
import Verif.Lemmas.JacobiExist

/-! Properties C14-C18: collocation matrices and quadrature weights. -/
set_option autoImplicit false
namespace WTM
open Polynomial BigOperators

/-! ### C14, C15 -/

/-- C14. The first-derivative matrix differentiates every polynomial of degree `< n` exactly. -/
theorem c14_first_derivative {n : ℕ} {x : Fin n → ℝ} (hx : Function.Injective x) (f : ℝ[X])
    (hf : f.degree < n) (i : Fin n) :
    ∑ j, aMat x i j * f.eval (x j) = (derivative f).eval (x i) :=
  aMat_apply hx hf i

/-- C14. Constants are mapped to zero: the rows sum to zero. -/
theorem c14_constants {n : ℕ} {x : Fin n → ℝ} (hx : Function.Injective x) (i : Fin n) :
    ∑ j, aMat x i j = 0 := by
  have h := aMat_apply hx (f := (1 : ℝ[X])) (by
    rw [degree_one]
    have : 0 < n := i.pos
    exact_mod_cast this) i
  simpa using h

/-- C15. The second-derivative matrix is exact on every polynomial of degree `< n`. -/
theorem c15_second_derivative {n : ℕ} {x : Fin n → ℝ} (hx : Function.Injective x) (f : ℝ[X])
    (hf : f.degree < n) (i : Fin n) :
    ∑ j, bMat x i j * f.eval (x j) = (derivative (derivative f)).eval (x i) :=
  bMat_apply hx hf i

/-- The axial nodes 0, interior, 1 are distinct whenever the interior ones are distinct points of
(0,1). -/
theorem axialNodes_inj {m : ℕ} {leg : Fin m → ℝ} (h : Function.Injective leg)
    (h1 : ∀ i, 0 < leg i ∧ leg i < 1) : Function.Injective (axialNodes leg) := by
  unfold axialNodes
  have hr : Function.Injective (Fin.snoc (α := fun _ => ℝ) leg 1) := radialNodes_inj h (fun i => (h1 i).2)
  have hp : ∀ i, 0 < (Fin.snoc (α := fun _ => ℝ) leg 1 : Fin (m + 1) → ℝ) i :=
    radialNodes_pos (fun i => (h1 i).1)
  intro i j hij
  induction i using Fin.cases with
  | zero =>
    induction j using Fin.cases with
    | zero => rfl
    | succ j => simp only [Fin.cons_zero, Fin.cons_succ] at hij; exact absurd hij (hp j).ne
  | succ i =>
    induction j using Fin.cases with
    | zero => simp only [Fin.cons_zero, Fin.cons_succ] at hij; exact absurd hij (hp i).ne'
    | succ j => simp only [Fin.cons_succ] at hij; rw [hr hij]

example : Function.Injective (axialNodes ![(1/4 : ℝ), 3/4]) := by
  apply axialNodes_inj
  · intro i j h
    fin_cases i <;> fin_cases j <;> simp_all <;> norm_num at h
  · intro i; fin_cases i <;> norm_num

/-! ### C16 -/

/-- C16. The radial operators reproduce `f'` and `f'' + (a-1)/r f'` for every even polynomial of degree
`< 2n`, in any geometry `a`, for any distinct positive squared radii. -/
theorem c16_radial {n : ℕ} {u : Fin n → ℝ} (hu : Function.Injective u) (hpos : ∀ i, 0 < u i) (a : ℝ)
    {f : ℝ[X]} (he : Spec.Even f) (hf : f.natDegree < 2 * n) (i : Fin n) :
    (∑ j, symmA u i j * f.eval (symmX u j) = (derivative f).eval (symmX u i)) ∧
    (∑ j, symmB a u i j * f.eval (symmX u j) =
      (derivative (derivative f)).eval (symmX u i) +
        (a - 1) / symmX u i * (derivative f).eval (symmX u i)) ∧
    symmX u i ^ 2 = u i ∧ 0 < symmX u i := by
  obtain ⟨g, rfl, hg⟩ := even_expand he
  have hgd : g.degree < n := by
    apply lt_of_le_of_lt degree_le_natDegree
    exact_mod_cast (by omega : g.natDegree < n)
  have hsq : ∀ j, symmX u j ^ 2 = u j := fun j => Real.sq_sqrt (hpos j).le
  have hp : 0 < symmX u i := Real.sqrt_pos.2 (hpos i)
  have hev : ∀ (p : ℝ[X]) j, (expand ℝ 2 p).eval (symmX u j) = p.eval (u j) := by
    intro p j; rw [expand_eval, hsq]
  have d1 : derivative (expand ℝ 2 g) = expand ℝ 2 (derivative g) * (2 * X) := by
    rw [derivative_expand]; simp
  have d2 : derivative (derivative (expand ℝ 2 g)) =
      expand ℝ 2 (derivative (derivative g)) * (2 * X) * (2 * X) + expand ℝ 2 (derivative g) * 2 := by
    have h2 : derivative (2 * X : ℝ[X]) = 2 := by
      have : (2 * X : ℝ[X]) = C 2 * X := rfl
      rw [this, derivative_C_mul, derivative_X, mul_one]; rfl
    rw [d1, derivative_mul, derivative_expand, h2]; simp
  have e2 : (2 : ℝ[X]).eval (symmX u i) = 2 := by
    have : (2 : ℝ[X]) = C 2 := rfl
    rw [this, eval_C]
  refine ⟨?_, ?_, hsq i, hp⟩
  · rw [d1, eval_mul, hev, ← aMat_apply hu hgd, eval_mul, e2, eval_X, Finset.sum_mul]
    apply Finset.sum_congr rfl
    intro j _
    rw [hev, symmA]; ring
  · rw [d2, d1]
    simp only [eval_add, eval_mul, hev, e2, eval_X]
    rw [← aMat_apply hu hgd, ← bMat_apply hu hgd]
    have hne := hp.ne'
    have : ∀ s t : ℝ, t * (2 * symmX u i) * (2 * symmX u i) + s * 2 +
        (a - 1) / symmX u i * (s * (2 * symmX u i)) = 2 * a * s + u i * 4 * t := by
      intro s t
      rw [← hsq i]; field_simp; ring
    rw [this, Finset.mul_sum, Finset.mul_sum, ← Finset.sum_add_distrib]
    apply Finset.sum_congr rfl
    intro j _
    rw [symmB]; ring

example : Spec.Even (X ^ 2 + 3 : ℝ[X]) ∧ (X ^ 2 + 3 : ℝ[X]).natDegree < 2 * 2 := by
  constructor
  · intro t; simp
  · have : (3 : ℝ[X]) = C 3 := rfl
    rw [this, natDegree_X_pow_add_C]; norm_num

/-! ### C17 -/

/-- C17. The weights are positive and sum to `1/a` for any distinct positive nodes. -/
theorem c17_positive_sum {n : ℕ} (hn : 0 < n) {u : Fin n → ℝ} (hu : Function.Injective u)
    (hpos : ∀ i, 0 < u i) {a : ℝ} (ha : 0 < a) :
    (∀ i, 0 < symmW a u i) ∧ ∑ i, symmW a u i = 1 / a := by
  have h1 : ∀ k, 0 < 1 / (u k * (px u k).1 ^ 2) := fun k =>
    one_div_pos.2 (mul_pos (hpos k) (by have := px_ne hu k; positivity))
  haveI : Nonempty (Fin n) := ⟨⟨0, hn⟩⟩
  have hs : 0 < ∑ k, 1 / (u k * (px u k).1 ^ 2) := Finset.sum_pos (fun k _ => h1 k) Finset.univ_nonempty
  refine ⟨fun i => div_pos (div_pos (h1 i) hs) ha, ?_⟩
  unfold symmW
  rw [← Finset.sum_div, ← Finset.sum_div, div_self hs.ne']

/-- C17. With the Jacobi zeros the code asks for (`p = 1.5 + (a-1)/2`, `q = p - 1`) as interior nodes
and 1 as the last node, the weights integrate `x^(a-1) f(x)` over [0,1] exactly for every even
polynomial of degree `≤ 4n-4`, `n = m+1` nodes. -/
theorem c17_exact {m : ℕ} {a : ℝ} (ha : 0 < a) {jac : Fin m → ℝ}
    (hj : Spec.ShJacobiRoots m (1.5 + (a - 1) / 2) (1.5 + (a - 1) / 2 - 1) jac)
    {f : ℝ[X]} (he : Spec.Even f) (hf : f.natDegree ≤ 4 * (m + 1) - 4) :
    ∑ i, symmW a (radialNodes jac) i * f.eval (symmX (radialNodes jac) i) =
      Spec.radialIntegral a f := by
  have e1 : (1.5 + (a - 1) / 2 : ℝ) = a / 2 + 1 := by ring
  have e2 : (a / 2 + 1 - 1 : ℝ) = a / 2 := by ring
  rw [e1, e2] at hj
  obtain ⟨g, rfl, hg⟩ := even_expand he
  rw [radial_expand ha, quad_exact ha hj (by omega)]
  apply Finset.sum_congr rfl
  intro i _
  rw [symmW_eq ha hj, expand_eval]
  congr 2
  exact Real.sq_sqrt (radialNodes_pos (fun i => (hj.2.1 i).1) i).le

/-- The hypothesis is met, e.g., by the single node 3/7 for a sphere (`roots_sh_jacobi(1, 2.5, 1.5)`). -/
example : Spec.ShJacobiRoots 1 (1.5 + (3 - 1) / 2) (1.5 + (3 - 1) / 2 - 1) (fun _ => 3 / 7) := by
  refine ⟨fun i j _ => Subsingleton.elim i j, fun i => by norm_num, ?_⟩
  intro g hg
  have hc : g = C (g.coeff 0) := eq_C_of_degree_le_zero (by
    rcases Nat.WithBot.lt_one_iff_le_zero.1 (by exact_mod_cast hg) with h
    exact h)
  rw [hc]
  set c := g.coeff 0
  have e : (fun u : ℝ => (1 - u) ^ ((1.5 + (3 - 1) / 2 : ℝ) - (1.5 + (3 - 1) / 2 - 1)) *
      u ^ ((1.5 + (3 - 1) / 2 - 1 : ℝ) - 1) * ((∏ i : Fin 1, (u - 3 / 7)) * (C c).eval u))
      = fun u => u ^ ((3 / 2 : ℝ) - 1) * (C c * ((1 - X) * (X - C (3/7)))).eval u := by
    funext u
    have h1 : ((1.5 + (3 - 1) / 2 : ℝ) - (1.5 + (3 - 1) / 2 - 1)) = 1 := by norm_num
    have h2 : (1.5 + (3 - 1) / 2 - 1 : ℝ) = 3 / 2 := by norm_num
    rw [h1, h2, Real.rpow_one]
    simp
    ring
  rw [e, (integral_rpow_poly (by norm_num) _).2]
  have e2 : (C c * ((1 - X) * (X - C (3/7)))) =
      monomial 0 (-(3/7) * c) + (monomial 1 (10/7 * c) + monomial 2 (-c)) := by
    simp only [← C_mul_X_pow_eq_monomial, map_mul, map_neg]
    have : (C (10/7) : ℝ[X]) = 1 + C (3/7) := by rw [← C_1, ← C_add]; norm_num
    rw [this]; ring
  rw [e2, sum_add_index, sum_add_index, sum_monomial_index, sum_monomial_index, sum_monomial_index]
  · push_cast; ring
  all_goals (intros; simp [add_div])

/-- C17. The hypothesis of `c17_exact` can be met for every number of nodes and every geometry: the
Jacobi zeros exist, distinct and inside (0,1). -/
theorem c17_nodes_exist (m : ℕ) {a : ℝ} (ha : 0 < a) :
    ∃ jac : Fin m → ℝ, Spec.ShJacobiRoots m (1.5 + (a - 1) / 2) (1.5 + (a - 1) / 2 - 1) jac ∧
      StrictMono jac := by
  have e1 : (1.5 + (a - 1) / 2 : ℝ) = a / 2 + 1 := by ring
  have e2 : (a / 2 + 1 - 1 : ℝ) = a / 2 := by ring
  rw [e1, e2]
  exact jacobi_exists m ha

/-! ### C18 -/

/-- `A = K * Q⁻¹` as soon as `A * Q = K` and `Q` is invertible. -/
theorem eq_mul_inv_of {n : ℕ} {A : Fin n → Fin n → ℝ} {Q K : Matrix (Fin n) (Fin n) ℝ}
    (hQ : Q.det ≠ 0) (h : ∀ i j, ∑ k, A i k * Q k j = K i j) (i j : Fin n) :
    (K * Q⁻¹) i j = A i j := by
  have e : Matrix.of A * Q = K := by
    ext i j; rw [Matrix.mul_apply]; simpa using h i j
  rw [← e, Matrix.mul_assoc, Matrix.mul_nonsing_inv _ (isUnit_iff_ne_zero.2 hQ), Matrix.mul_one]
  rfl

theorem vQ_det {n : ℕ} {x : Fin n → ℝ} (hx : Function.Injective x) : (vQ x).det ≠ 0 := by
  have : vQ x = Matrix.vandermonde x := rfl
  rw [this, Matrix.det_vandermonde_ne_zero_iff]; exact hx

theorem X_pow_deg {n : ℕ} (j : Fin n) : ((X : ℝ[X]) ^ (j : ℕ)).degree < n := by
  rw [degree_X_pow]; exact_mod_cast j.2

/-- C18. The multi-element matrices built by inverting a Vandermonde matrix are the matrices built by
recurrence, for any distinct nodes. -/
theorem c18_axial_elements {n : ℕ} {x : Fin n → ℝ} (hx : Function.Injective x) :
    (∀ i j, vA x i j = aMat x i j) ∧ ∀ i j, vB x i j = bMat x i j := by
  constructor
  · apply eq_mul_inv_of (vQ_det hx)
    intro i j
    have h := aMat_apply hx (X_pow_deg j) i
    simp only [eval_pow, eval_X] at h
    show ∑ k, aMat x i k * x k ^ (j : ℕ) = _
    rw [h, vC]
    by_cases h0 : (j : ℕ) < 1
    · have : (j : ℕ) = 0 := by omega
      rw [if_pos h0, this]; simp
    · rw [if_neg h0, derivative_X_pow]; simp
  · apply eq_mul_inv_of (vQ_det hx)
    intro i j
    have h := bMat_apply hx (X_pow_deg j) i
    simp only [eval_pow, eval_X] at h
    show ∑ k, bMat x i k * x k ^ (j : ℕ) = _
    rw [h, vD]
    by_cases h0 : (j : ℕ) < 2
    · have : (j : ℕ) = 0 ∨ (j : ℕ) = 1 := by omega
      rw [if_pos h0]
      rcases this with e | e <;> rw [e] <;> simp
    · rw [if_neg h0, derivative_X_pow, derivative_C_mul, derivative_X_pow]
      have : 1 ≤ (j : ℕ) := by omega
      simp only [map_natCast, eval_mul, eval_natCast, eval_pow, eval_X, Nat.cast_sub this, Nat.cast_one,
        Nat.sub_sub]
      rw [eval_C]; ring

/-- C18. The single-element axial matrix of PSDM (powers of `2x-1`) is the same matrix. -/
theorem c18_axial_single {n : ℕ} {x : Fin n → ℝ} (hx : Function.Injective x) :
    ∀ i j, uA x i j = aMat x i j := by
  have hd : (uQ x).det ≠ 0 := by
    have : uQ x = Matrix.vandermonde (fun i => 2 * x i - 1) := rfl
    rw [this, Matrix.det_vandermonde_ne_zero_iff]
    intro i j h
    exact hx (by simp only at h; linarith)
  apply eq_mul_inv_of hd
  intro i j
  have hdeg : ((C 2 * X - C 1 : ℝ[X]) ^ (j : ℕ)).degree < n := by
    rw [degree_pow]
    have : (C 2 * X - C 1 : ℝ[X]).degree = 1 := by
      rw [sub_eq_add_neg, ← C_neg]
      exact degree_linear (by norm_num)
    rw [this, nsmul_one]
    exact_mod_cast j.2
  have h := aMat_apply hx hdeg i
  simp only [eval_pow, eval_sub, eval_mul, eval_C, eval_X] at h
  show ∑ k, aMat x i k * (2 * x k - 1) ^ (j : ℕ) = _
  rw [h, uC, derivative_pow]
  simp only [derivative_sub, derivative_mul, derivative_C, derivative_X, eval_mul, eval_pow, eval_sub,
    eval_C, eval_X, mul_one, zero_mul, zero_add, sub_zero, map_natCast, eval_natCast]
  by_cases h0 : (j : ℕ) < 1
  · have : (j : ℕ) = 0 := by omega
    rw [if_pos h0, this]; simp
  · rw [if_neg h0]
    by_cases h1 : (j : ℕ) = 1
    · rw [if_pos h1, h1]; norm_num
    · rw [if_neg h1]; ring

theorem sQ_det {n : ℕ} {u : Fin n → ℝ} (hu : Function.Injective u) (hpos : ∀ i, 0 < u i) :
    (sQ (symmX u)).det ≠ 0 := by
  have : sQ (symmX u) = Matrix.vandermonde u := by
    ext i j
    rw [sQ, pow_mul, Matrix.vandermonde_apply]
    congr 1
    exact Real.sq_sqrt (hpos i).le
  rw [this, Matrix.det_vandermonde_ne_zero_iff]; exact hu

/-- C18. The radial Laplacian of PSDM is the one of the ion-exchange models, for any distinct positive
squared radii and any geometry. -/
theorem c18_radial_laplacian {n : ℕ} {u : Fin n → ℝ} (hu : Function.Injective u) (hpos : ∀ i, 0 < u i)
    (a : ℝ) : ∀ i j, sB a (symmX u) i j = symmB a u i j := by
  apply eq_mul_inv_of (sQ_det hu hpos)
  intro i j
  have hsq : ∀ j, symmX u j ^ 2 = u j := fun j => Real.sq_sqrt (hpos j).le
  have h1 := aMat_apply hu (X_pow_deg j) i
  have h2 := bMat_apply hu (X_pow_deg j) i
  simp only [eval_pow, eval_X] at h1 h2
  show ∑ k, symmB a u i k * symmX u k ^ (2 * (j : ℕ)) = _
  have : ∑ k, symmB a u i k * symmX u k ^ (2 * (j : ℕ)) =
      2 * a * ∑ k, aMat u i k * u k ^ (j : ℕ) + u i * 4 * ∑ k, bMat u i k * u k ^ (j : ℕ) := by
    rw [Finset.mul_sum, Finset.mul_sum, ← Finset.sum_add_distrib]
    apply Finset.sum_congr rfl
    intro k _
    rw [pow_mul, hsq, symmB]; ring
  rw [this, h1, h2, sD]
  by_cases h0 : (j : ℕ) < 1
  · have : (j : ℕ) = 0 := by omega
    rw [if_pos h0, this]; simp
  · rw [if_neg h0]
    by_cases h1 : (j : ℕ) = 1
    · rw [if_pos h1, h1]; simp
    · rw [if_neg h1, pow_mul, hsq, derivative_X_pow, derivative_C_mul, derivative_X_pow]
      obtain ⟨k, hk⟩ : ∃ k, (j : ℕ) = k + 2 := ⟨(j : ℕ) - 2, by omega⟩
      simp only [hk, map_natCast, eval_mul, eval_natCast, eval_pow, eval_X,
        show k + 2 - 1 = k + 1 from rfl, show k + 1 - 1 = k from rfl]
      push_cast
      ring

/-- C18. The PSDM weights (`f · Q⁻¹`) are the recurrence weights, at the Jacobi nodes both use. -/
theorem c18_weights {m : ℕ} {a : ℝ} (ha : 0 < a) {jac : Fin m → ℝ}
    (hj : Spec.ShJacobiRoots m (1.5 + (a - 1) / 2) (1.5 + (a - 1) / 2 - 1) jac) :
    sW a (symmX (radialNodes jac)) = symmW a (radialNodes jac) := by
  have e1 : (1.5 + (a - 1) / 2 : ℝ) = a / 2 + 1 := by ring
  have e2 : (a / 2 + 1 - 1 : ℝ) = a / 2 := by ring
  rw [e1, e2] at hj
  have hu := radialNodes_inj hj.1 (fun i => (hj.2.1 i).2)
  have hpos := radialNodes_pos (fun i => (hj.2.1 i).1)
  have hdet := sQ_det hu hpos
  have hsq : ∀ j, symmX (radialNodes jac) j ^ 2 = radialNodes jac j := fun j => Real.sq_sqrt (hpos j).le
  have hF : ∀ j : Fin (m + 1), sF (m + 1) a j =
      ∑ k, symmW a (radialNodes jac) k * sQ (symmX (radialNodes jac)) k j := by
    intro j
    have h := quad_exact ha hj (f := X ^ (j : ℕ)) (by rw [natDegree_X_pow]; have := j.2; omega)
    rw [X_pow_eq_monomial, mom_monomial] at h
    rw [sF, show (2 * ((j : ℕ) + 1 : ℝ) - 2 + a) = a + 2 * (j : ℕ) by ring, h]
    apply Finset.sum_congr rfl
    intro k _
    rw [symmW_eq ha hj, sQ, pow_mul, hsq]; simp
  funext i
  unfold sW
  simp only [hF, Finset.sum_mul]
  rw [Finset.sum_comm]
  simp only [mul_assoc, ← Finset.mul_sum, ← Matrix.mul_apply,
    Matrix.mul_nonsing_inv _ (isUnit_iff_ne_zero.2 hdet)]
  simp [Matrix.one_apply]

end WTM
