import Mathlib.LinearAlgebra.Lagrange
import Mathlib.Tactic.LinearCombination
import Mathlib.Tactic.FieldSimp
import Mathlib.Tactic.Ring
import Verif.Model.Colloc

/-! The recurrence of `colloc.py` computes derivatives of the nodal polynomial, and the matrices are the
derivatives of the Lagrange basis. -/
set_option autoImplicit false
namespace WTM
open Polynomial BigOperators

/-- Product of `(X - r)` over a list, times `(X - xi)`. -/
noncomputable def nodalL (xi : ℝ) (l : List ℝ) : ℝ[X] := (X - C xi) * (l.map (fun r => X - C r)).prod

theorem pxFold (xi : ℝ) (l : List ℝ) :
    l.foldl (fun p r => recur p (xi - r)) (1, 0, 0) =
      ((derivative (nodalL xi l)).eval xi, (derivative (derivative (nodalL xi l))).eval xi,
        (derivative (derivative (derivative (nodalL xi l)))).eval xi) := by
  induction l using List.reverseRecOn with
  | nil => simp [nodalL]
  | append_singleton l r ih =>
    have e : nodalL xi (l ++ [r]) = nodalL xi l * (X - C r) := by
      simp [nodalL, mul_assoc]
    have h0 : (nodalL xi l).eval xi = 0 := by simp [nodalL]
    rw [List.foldl_append, ih, e]
    simp only [List.foldl_cons, List.foldl_nil, recur, derivative_mul, derivative_add, derivative_sub,
      derivative_X, derivative_C, eval_add, eval_mul, eval_sub, eval_X, eval_C, h0, sub_zero,
      derivative_one, mul_zero, add_zero, eval_one, mul_one, Prod.mk.injEq]
    refine ⟨by ring, by ring, by ring⟩

variable {n : ℕ} {x : Fin n → ℝ}

/-- Nodal polynomial. -/
noncomputable def nod (x : Fin n → ℝ) : ℝ[X] := Lagrange.nodal Finset.univ x

theorem nodalL_eq (hx : Function.Injective x) (i : Fin n) :
    nodalL (x i) ((List.ofFn x).filter (fun r => decide (r - x i ≠ 0))) = nod x := by
  unfold nodalL nod
  rw [Lagrange.nodal_eq_mul_nodal_erase (Finset.mem_univ i)]
  congr 1
  rw [List.ofFn_eq_map, List.filter_map, List.map_map, Lagrange.nodal_eq]
  have : (List.finRange n).filter ((fun r => decide (r - x i ≠ 0)) ∘ x)
      = (List.finRange n).filter (fun j => decide (j ≠ i)) := by
    apply List.filter_congr
    intro j _
    simp [sub_eq_zero, hx.eq_iff]
  rw [this]
  have nd : ((List.finRange n).filter (fun j => decide (j ≠ i))).Nodup := (List.nodup_finRange n).filter _
  rw [show Finset.univ.erase i = ((List.finRange n).filter (fun j => decide (j ≠ i))).toFinset from ?_]
  · rw [List.prod_toFinset _ nd]; rfl
  · ext j; simp

theorem px_eq (hx : Function.Injective x) (i : Fin n) :
    px x i = ((derivative (nod x)).eval (x i), (derivative (derivative (nod x))).eval (x i),
      (derivative (derivative (derivative (nod x)))).eval (x i)) := by
  unfold px pxColumn
  rw [pxFold, nodalL_eq hx]

theorem nod_deriv_ne (hx : Function.Injective x) (i : Fin n) : (derivative (nod x)).eval (x i) ≠ 0 := by
  unfold nod
  rw [Lagrange.eval_nodal_derivative_eval_node_eq (Finset.mem_univ i), Lagrange.eval_nodal]
  rw [Finset.prod_ne_zero_iff]
  intro j hj
  rw [sub_ne_zero]
  intro h
  exact (Finset.mem_erase.1 hj).1 (hx h).symm

theorem px_ne (hx : Function.Injective x) (i : Fin n) : (px x i).1 ≠ 0 := by
  rw [px_eq hx]; exact nod_deriv_ne hx i

/-- Lagrange basis. -/
noncomputable def lag (x : Fin n → ℝ) (j : Fin n) : ℝ[X] := Lagrange.basis Finset.univ x j

theorem nod_eq_lag (hx : Function.Injective x) (j : Fin n) :
    nod x = C ((derivative (nod x)).eval (x j)) * ((X - C (x j)) * lag x j) := by
  have h1 : nod x = (X - C (x j)) * Lagrange.nodal (Finset.univ.erase j) x :=
    Lagrange.nodal_eq_mul_nodal_erase (Finset.mem_univ j)
  have h2 : lag x j = C (((derivative (nod x)).eval (x j))⁻¹) * Lagrange.nodal (Finset.univ.erase j) x := by
    unfold lag
    rw [Lagrange.basis_eq_prod_sub_inv_mul_nodal_div (Finset.mem_univ j),
      Lagrange.nodalWeight_eq_eval_derivative_nodal (Finset.mem_univ j),
      Lagrange.nodal_erase_eq_nodal_div (Finset.mem_univ j)]
    rfl
  rw [h2]
  have h3 := nod_deriv_ne hx j
  conv_lhs => rw [h1]
  have : C ((derivative (nod x)).eval (x j)) * C (((derivative (nod x)).eval (x j))⁻¹) = (1 : ℝ[X]) := by
    rw [← C_mul, mul_inv_cancel₀ h3, C_1]
  linear_combination -((X - C (x j)) * Lagrange.nodal (Finset.univ.erase j) x) * this

theorem lag_self (hx : Function.Injective x) (j : Fin n) : (lag x j).eval (x j) = 1 :=
  Lagrange.eval_basis_self hx.injOn (Finset.mem_univ j)

theorem lag_ne {i j : Fin n} (h : i ≠ j) : (lag x j).eval (x i) = 0 :=
  Lagrange.eval_basis_of_ne h.symm (Finset.mem_univ i)

theorem aMat_eq (hx : Function.Injective x) (i j : Fin n) :
    aMat x i j = (derivative (lag x j)).eval (x i) := by
  have hp := nod_deriv_ne hx j
  have e1 := congrArg (fun p => (derivative p).eval (x i)) (nod_eq_lag hx j)
  have e2 := congrArg (fun p => (derivative (derivative p)).eval (x i)) (nod_eq_lag hx j)
  simp only [derivative_mul, derivative_add, derivative_sub, derivative_X, derivative_C, eval_add,
    eval_mul, eval_sub, eval_X, eval_C, sub_zero, zero_mul, zero_add, one_mul, eval_one, mul_one] at e1 e2
  unfold aMat
  rw [px_eq hx, px_eq hx]
  by_cases h : i = j
  · subst h
    rw [if_pos rfl]
    simp only
    rw [e2]
    simp only [sub_self, zero_mul, add_zero]
    field_simp
    ring
  · rw [if_neg h]
    simp only
    have hG : x i - x j ≠ 0 := sub_ne_zero.2 (fun h' => h (hx h'))
    rw [e1, lag_ne h]
    field_simp
    ring

theorem bMat_eq (hx : Function.Injective x) (i j : Fin n) :
    bMat x i j = (derivative (derivative (lag x j))).eval (x i) := by
  have hp := nod_deriv_ne hx j
  have e2 := congrArg (fun p => (derivative (derivative p)).eval (x i)) (nod_eq_lag hx j)
  have e3 := congrArg (fun p => (derivative (derivative (derivative p))).eval (x i)) (nod_eq_lag hx j)
  simp only [derivative_mul, derivative_add, derivative_sub, derivative_X, derivative_C, eval_add,
    eval_mul, eval_sub, eval_X, eval_C, sub_zero, zero_mul, zero_add, one_mul, eval_one, mul_one] at e2 e3
  have ha := aMat_eq hx i j
  unfold bMat
  rw [px_eq hx, px_eq hx]
  by_cases h : i = j
  · subst h
    rw [if_pos rfl]
    simp only
    rw [e3]
    simp only [sub_self, zero_mul, add_zero]
    field_simp
    ring
  · rw [if_neg h]
    simp only
    have hG : x i - x j ≠ 0 := sub_ne_zero.2 (fun h' => h (hx h'))
    rw [e2, ha]
    field_simp
    ring

/-- Polynomials of degree `< n` are recovered from their nodal values. -/
theorem eq_sum_lag (hx : Function.Injective x) {f : ℝ[X]} (hf : f.degree < n) :
    f = ∑ j, C (f.eval (x j)) * lag x j := by
  have := Lagrange.eq_interpolate (s := Finset.univ) (v := x) (f := f) hx.injOn (by simpa using hf)
  rw [Lagrange.interpolate_apply] at this
  exact this

theorem lag_degree (hx : Function.Injective x) (j : Fin n) : (lag x j).degree < n := by
  unfold lag
  rw [Lagrange.degree_basis hx.injOn (Finset.mem_univ j)]
  simp only [Finset.card_univ, Fintype.card_fin]
  have : 0 < n := j.pos
  exact_mod_cast Nat.sub_lt this one_pos

theorem aMat_apply (hx : Function.Injective x) {f : ℝ[X]} (hf : f.degree < n) (i : Fin n) :
    ∑ j, aMat x i j * f.eval (x j) = (derivative f).eval (x i) := by
  conv_rhs => rw [eq_sum_lag hx hf]
  rw [derivative_sum, eval_finset_sum]
  apply Finset.sum_congr rfl
  intro j _
  rw [aMat_eq hx, derivative_mul, derivative_C]
  simp [mul_comm]

theorem bMat_apply (hx : Function.Injective x) {f : ℝ[X]} (hf : f.degree < n) (i : Fin n) :
    ∑ j, bMat x i j * f.eval (x j) = (derivative (derivative f)).eval (x i) := by
  conv_rhs => rw [eq_sum_lag hx hf]
  rw [derivative_sum, derivative_sum, eval_finset_sum]
  apply Finset.sum_congr rfl
  intro j _
  rw [bMat_eq hx, derivative_mul, derivative_C]
  simp [derivative_mul, mul_comm]

end WTM
