import Mathlib.Tactic
import Mathlib.Analysis.SpecialFunctions.Integrals.Basic
import Verif.Model.Colloc
import Verif.Spec.Colloc
import Verif.Props.Advect
import Verif.Model.Extra
import Verif.Props.IexIons
import Mathlib.Analysis.Real.Pi.Bounds

/-! Validation of the model: its definitions have the values that the repository's own assertions expect of the code
(IonExchangeModel/test/test_colloc.py, the first rows of test_alkalinity.py, and the two published columns at the end
of PSDM_extra.py). No property rests on this file. -/
set_option autoImplicit false
namespace WTM
open BigOperators Polynomial

theorem px3_0 {a b c : ℝ} (h1 : a ≠ b) (h2 : a ≠ c) :
    px ![a, b, c] 0 = ((a - c) * (a - b), (a - c) * 2 + 2 * (a - b), 6) := by
  have e1 : b - a ≠ 0 := sub_ne_zero.2 (Ne.symm h1)
  have e2 : c - a ≠ 0 := sub_ne_zero.2 (Ne.symm h2)
  simp [px, pxColumn, recur, List.ofFn_succ, e1, e2]
  norm_num

theorem px3_1 {a b c : ℝ} (h1 : a ≠ b) (h2 : b ≠ c) :
    px ![a, b, c] 1 = ((b - c) * (b - a), (b - c) * 2 + 2 * (b - a), 6) := by
  have e1 : a - b ≠ 0 := sub_ne_zero.2 h1
  have e2 : c - b ≠ 0 := sub_ne_zero.2 (Ne.symm h2)
  simp [px, pxColumn, recur, List.ofFn_succ, e1, e2]
  norm_num

theorem px3_2 {a b c : ℝ} (h1 : a ≠ c) (h2 : b ≠ c) :
    px ![a, b, c] 2 = ((c - b) * (c - a), (c - b) * 2 + 2 * (c - a), 6) := by
  have e1 : a - c ≠ 0 := sub_ne_zero.2 h1
  have e2 : b - c ≠ 0 := sub_ne_zero.2 h2
  simp [px, pxColumn, recur, List.ofFn_succ, e1, e2]
  norm_num

/-- `np.allclose(ref, x)` with its default tolerances. -/
def close (ref x : ℝ) : Prop := |ref - x| ≤ 1e-8 + 1e-5 * |x|

section
variable {s : ℝ}

/-- The bead nodes of `build_collocation(3, 4)` in the squared variable; `s` is the root of 15. -/
noncomputable def node0 (s : ℝ) : ℝ := (15 - 2 * s) / 33
noncomputable def node1 (s : ℝ) : ℝ := (15 + 2 * s) / 33

theorem node_ne (h : s ^ 2 = 15) (hs : 0 < s) :
    node0 s ≠ node1 s ∧ node0 s ≠ 1 ∧ node1 s ≠ 1 ∧ node0 s ≠ 0 ∧ node1 s ≠ 0 := by
  have h4 : s < 4 := by nlinarith
  refine ⟨?_, ?_, ?_, ?_, ?_⟩ <;> simp only [node0, node1] <;> intro hh <;> nlinarith

theorem inv01 (h : s ^ 2 = 15) : (node0 s - node1 s)⁻¹ = -(33 * s / 60) := by
  refine inv_eq_of_mul_eq_one_right ?_
  unfold node0 node1
  linear_combination (1 / 15) * h

theorem inv10 (h : s ^ 2 = 15) : (node1 s - node0 s)⁻¹ = 33 * s / 60 := by
  refine inv_eq_of_mul_eq_one_right ?_
  unfold node0 node1
  linear_combination (1 / 15) * h

theorem inv0 (h : s ^ 2 = 15) : (node0 s - 1)⁻¹ = (s - 9) / 4 := by
  refine inv_eq_of_mul_eq_one_right ?_
  unfold node0
  linear_combination (-1 / 66) * h

theorem inv1 (h : s ^ 2 = 15) : (node1 s - 1)⁻¹ = -((s + 9) / 4) := by
  refine inv_eq_of_mul_eq_one_right ?_
  unfold node1
  linear_combination (-1 / 66) * h

theorem inv0' (h : s ^ 2 = 15) : (1 - node0 s)⁻¹ = -((s - 9) / 4) := by
  refine inv_eq_of_mul_eq_one_right ?_
  unfold node0
  linear_combination (-1 / 66) * h

theorem inv1' (h : s ^ 2 = 15) : (1 - node1 s)⁻¹ = (s + 9) / 4 := by
  refine inv_eq_of_mul_eq_one_right ?_
  unfold node1
  linear_combination (-1 / 66) * h

theorem inv0z (h : s ^ 2 = 15) : (node0 s)⁻¹ = (15 + 2 * s) / 5 := by
  refine inv_eq_of_mul_eq_one_right ?_
  unfold node0
  linear_combination (-4 / 165) * h

theorem inv1z (h : s ^ 2 = 15) : (node1 s)⁻¹ = (15 - 2 * s) / 5 := by
  refine inv_eq_of_mul_eq_one_right ?_
  unfold node1
  linear_combination (-4 / 165) * h

/-- Exact entries of `Br`. -/
theorem br_exact (h : s ^ 2 = 15) (hs : 0 < s) :
    Matrix.of (symmB 3 ![node0 s, node1 s, 1]) =
      !![-30 + 3.7 * s, 15 + 1.3 * s, 15 - 5 * s;
         15 - 1.3 * s, -30 - 3.7 * s, 15 + 5 * s;
         -30 + 14.7 * s, -30 - 14.7 * s, 60] := by
  obtain ⟨n1, n2, n3, -, -⟩ := node_ne h hs
  have p0 := px3_0 n1 n2
  have p1 := px3_1 n1 n3
  have p2 := px3_2 n2 n3
  have s3 : s ^ 3 = 15 * s := by linear_combination s * h
  have s4 : s ^ 4 = 225 := by linear_combination (s ^ 2 + 15) * h
  have s5 : s ^ 5 = 225 * s := by linear_combination (s ^ 3 + 15 * s) * h
  have s6 : s ^ 6 = 3375 := by linear_combination (s ^ 4 + 15 * s ^ 2 + 225) * h
  have s7 : s ^ 7 = 3375 * s := by rw [show s ^ 7 = s ^ 6 * s by ring, s6]
  ext i j
  fin_cases i <;> fin_cases j <;>
    simp only [symmB, aMat, bMat, Matrix.of_apply, Fin.zero_eta, Fin.mk_one, Fin.reduceFinMk, p0, p1, p2, if_true,
      Matrix.cons_val_zero, Matrix.cons_val_one, Matrix.cons_val, Fin.reduceEq, if_false, div_eq_mul_inv, mul_inv,
      inv01 h, inv10 h, inv0 h, inv1 h, inv0' h, inv1' h] <;>
    unfold node0 node1 <;> norm_num <;> ring_nf <;> simp only [h, s3, s4, s5, s6, s7] <;> ring_nf

/-- Exact entries of `Wr`. -/
theorem wr_exact (h : s ^ 2 = 15) (hs : 0 < s) :
    symmW 3 ![node0 s, node1 s, 1] = ![1 / 7 - 13 * s / 1050, 1 / 7 + 13 * s / 1050, 1 / 21] := by
  obtain ⟨n1, n2, n3, -, -⟩ := node_ne h hs
  have p0 := px3_0 n1 n2
  have p1 := px3_1 n1 n3
  have p2 := px3_2 n2 n3
  have s3 : s ^ 3 = 15 * s := by linear_combination s * h
  have s4 : s ^ 4 = 225 := by linear_combination (s ^ 2 + 15) * h
  have s5 : s ^ 5 = 225 * s := by linear_combination (s ^ 3 + 15 * s) * h
  have s6 : s ^ 6 = 3375 := by linear_combination (s ^ 4 + 15 * s ^ 2 + 225) * h
  have w0 : 1 / (node0 s * ((node0 s - 1) * (node0 s - node1 s)) ^ 2) = (1089 / 320) * (15 - 13 / 10 * s) := by
    simp only [one_div, mul_inv, mul_pow, ← inv_pow, inv01 h, inv0 h, inv0z h]
    ring_nf; simp only [h, s3, s4, s5]; ring_nf
  have w1 : 1 / (node1 s * ((node1 s - 1) * (node1 s - node0 s)) ^ 2) = (1089 / 320) * (15 + 13 / 10 * s) := by
    simp only [one_div, mul_inv, mul_pow, ← inv_pow, inv10 h, inv1 h, inv1z h]
    ring_nf; simp only [h, s3, s4, s5]; ring_nf
  have w2 : 1 / (1 * ((1 - node1 s) * (1 - node0 s)) ^ 2) = (1089 / 320) * 5 := by
    simp only [one_div, mul_inv, mul_pow, ← inv_pow, inv0' h, inv1' h]
    ring_nf; simp only [h, s4]; ring_nf
  have tot : ∑ k : Fin 3, 1 / ((![node0 s, node1 s, 1] : Fin 3 → ℝ) k * (px ![node0 s, node1 s, 1] k).1 ^ 2) =
      (1089 / 320) * 35 := by
    rw [Fin.sum_univ_three, p0, p1, p2]
    simp only [Matrix.cons_val_zero, Matrix.cons_val_one, Matrix.cons_val]
    rw [w0, w1, w2]; ring
  ext i
  unfold symmW
  rw [tot]
  fin_cases i
  · simp only [Fin.zero_eta, p0, Matrix.cons_val_zero]; rw [w0]; ring
  · simp only [Fin.mk_one, p1, Matrix.cons_val_one, Matrix.cons_val_zero]; rw [w1]; ring
  · simp only [Fin.reduceFinMk, p2, Matrix.cons_val]; rw [w2]; ring
end

/-! ### The bead nodes are the roots of the shifted Jacobi polynomial -/

theorem half_moment (k : ℕ) : ∫ u in (0:ℝ)..1, u ^ (1 / 2 : ℝ) * u ^ k = 1 / ((k : ℝ) + 3 / 2) := by
  have h : ∫ u in (0:ℝ)..1, u ^ (1 / 2 : ℝ) * u ^ k = ∫ u in (0:ℝ)..1, u ^ ((k : ℝ) + 1 / 2) := by
    refine intervalIntegral.integral_congr (fun u hu => ?_)
    rw [Set.uIcc_of_le zero_le_one] at hu
    show u ^ (1 / 2 : ℝ) * u ^ k = u ^ ((k : ℝ) + 1 / 2)
    rw [Real.rpow_add_of_nonneg hu.1 (by positivity) (by norm_num), Real.rpow_natCast]
    ring
  have hk : (0:ℝ) ≤ (k : ℝ) := Nat.cast_nonneg k
  rw [h, integral_rpow (Or.inl (by linarith)), Real.one_rpow, Real.zero_rpow (by linarith)]
  rw [sub_zero]
  congr 1
  ring

theorem half_int (k : ℕ) : IntervalIntegrable (fun u : ℝ => u ^ (1 / 2 : ℝ) * u ^ k) MeasureTheory.volume 0 1 :=
  ((Real.continuous_rpow_const (by norm_num)).mul (continuous_pow k)).intervalIntegrable _ _

/-- The orthogonality integral of `roots_sh_jacobi(2, 2.5, 1.5)` in terms of the sum and product of the roots. -/
theorem jac_integral (e1 e2 a b : ℝ) :
    ∫ u in (0:ℝ)..1, (1 - u) ^ ((2.5 : ℝ) - 1.5) * u ^ ((1.5 : ℝ) - 1) * ((u ^ 2 - e1 * u + e2) * (a * u + b)) =
      4 * (a * (1 / 99 - e1 / 63 + e2 / 35) + b * (1 / 63 - e1 / 35 + e2 / 15)) := by
  have h : ∀ u : ℝ, (1 - u) ^ ((2.5 : ℝ) - 1.5) * u ^ ((1.5 : ℝ) - 1) * ((u ^ 2 - e1 * u + e2) * (a * u + b)) =
      (-a) * (u ^ (1 / 2 : ℝ) * u ^ 4) + (a + e1 * a - b) * (u ^ (1 / 2 : ℝ) * u ^ 3) +
      (b - e1 * a + e1 * b - e2 * a) * (u ^ (1 / 2 : ℝ) * u ^ 2) +
      (e2 * a - e1 * b - e2 * b) * (u ^ (1 / 2 : ℝ) * u ^ 1) + (e2 * b) * (u ^ (1 / 2 : ℝ) * u ^ 0) := by
    intro u
    rw [show (2.5 : ℝ) - 1.5 = 1 by norm_num, show (1.5 : ℝ) - 1 = 1 / 2 by norm_num, Real.rpow_one]
    ring
  simp only [h]
  have i (c : ℝ) (k : ℕ) := (half_int k).const_mul c
  rw [intervalIntegral.integral_add ((((i _ 4).add (i _ 3)).add (i _ 2)).add (i _ 1)) (i _ 0),
    intervalIntegral.integral_add (((i _ 4).add (i _ 3)).add (i _ 2)) (i _ 1),
    intervalIntegral.integral_add ((i _ 4).add (i _ 3)) (i _ 2),
    intervalIntegral.integral_add (i _ 4) (i _ 3)]
  simp only [intervalIntegral.integral_const_mul, half_moment]
  norm_num
  ring

/-- Listed in increasing order, as scipy returns them, the two roots are `node0` and `node1`. -/
theorem jac_roots (r : Fin 2 → ℝ) :
    (Spec.ShJacobiRoots 2 2.5 1.5 r ∧ r 0 < r 1) ↔ r = ![node0 (Real.sqrt 15), node1 (Real.sqrt 15)] := by
  set s := Real.sqrt 15 with hs
  have h : s ^ 2 = 15 := Real.sq_sqrt (by norm_num)
  have hp : 0 < s := Real.sqrt_pos.2 (by norm_num)
  have h4 : s < 4 := by nlinarith
  have key : ∀ a b : ℝ, ∫ u in (0:ℝ)..1, (1 - u) ^ ((2.5 : ℝ) - 1.5) * u ^ ((1.5 : ℝ) - 1) *
      ((∏ i, (u - r i)) * (C a * X + C b : ℝ[X]).eval u) =
      4 * (a * (1 / 99 - (r 0 + r 1) / 63 + r 0 * r 1 / 35) + b * (1 / 63 - (r 0 + r 1) / 35 + r 0 * r 1 / 15)) := by
    intro a b
    rw [← jac_integral]
    congr 1; ext u
    rw [Fin.prod_univ_two]
    simp only [eval_add, eval_mul, eval_C, eval_X]
    ring
  constructor
  · rintro ⟨⟨-, -, ho⟩, hlt⟩
    have d1 : (C (1:ℝ) * X + C 0 : ℝ[X]).degree < (2 : ℕ) := by
      refine lt_of_le_of_lt (degree_linear_le) (by norm_num)
    have d0 : (C (0:ℝ) * X + C 1 : ℝ[X]).degree < (2 : ℕ) := by
      refine lt_of_le_of_lt (degree_linear_le) (by norm_num)
    have e1 := ho _ d1
    have e0 := ho _ d0
    rw [key] at e1 e0
    have hsum : r 0 + r 1 = 30 / 33 := by linarith
    have hprod : r 0 * r 1 = 5 / 33 := by linarith
    have hd : (r 1 - r 0) ^ 2 = (4 * s / 33) ^ 2 := by
      have : (r 1 - r 0) ^ 2 = (r 0 + r 1) ^ 2 - 4 * (r 0 * r 1) := by ring
      rw [this, hsum, hprod]
      linear_combination (-16 / 1089) * h
    have hd' : r 1 - r 0 = 4 * s / 33 := by
      rcases sq_eq_sq_iff_eq_or_eq_neg.1 hd with h' | h'
      · exact h'
      · linarith
    ext i
    fin_cases i
    · simp [node0]; linarith
    · simp [node1]; linarith
  · rintro rfl
    refine ⟨⟨?_, ?_, ?_⟩, ?_⟩
    · intro i j hij
      fin_cases i <;> fin_cases j <;> simp [node0, node1] at hij ⊢ <;> linarith
    · intro i
      fin_cases i <;> simp [node0, node1] <;> constructor <;> linarith
    · intro g hg
      have hg1 : g.degree ≤ 1 := by
        refine (degree_le_iff_coeff_zero g 1).2 fun m hm => (degree_lt_iff_coeff_zero g 2).1 hg m ?_
        exact_mod_cast hm
      rw [eq_X_add_C_of_degree_le_one hg1, key]
      have e1 : node0 s + node1 s = 30 / 33 := by unfold node0 node1; ring
      have e2 : node0 s * node1 s = 5 / 33 := by unfold node0 node1; linear_combination (-4 / 1089) * h
      simp only [Matrix.cons_val_zero, Matrix.cons_val_one]
      rw [e1, e2]; ring
    · simp [node0, node1]; linarith

theorem sqrt15 : (3.8729833462 : ℝ) ≤ Real.sqrt 15 ∧ Real.sqrt 15 ≤ 3.8729833463 :=
  ⟨Real.le_sqrt_of_sq_le (by norm_num), Real.sqrt_le_iff.2 ⟨by norm_num, by norm_num⟩⟩

theorem close_of {ref x lo hi : ℝ} (h1 : lo ≤ x) (h2 : x ≤ hi) (h3 : ref - lo ≤ 1e-8) (h4 : hi - ref ≤ 1e-8) :
    close ref x := by
  unfold close
  have : |ref - x| ≤ 1e-8 := abs_le.2 ⟨by linarith, by linarith⟩
  have h5 := abs_nonneg x
  linarith

/-- `test_Br` and `test_Wr` (test_colloc.py:14-25) hold of the model, whatever two nodes the root finder returns in
increasing order. -/
theorem ref_bead (r : Fin 2 → ℝ) (hr : Spec.ShJacobiRoots 2 2.5 1.5 r) (hlt : r 0 < r 1) :
    (∀ i j, close ((!![-15.66996162, 20.03487835, -4.36491673; 9.96512165, -44.33003838, 34.36491673;
        26.93285519, -86.93285519, 60] : Matrix (Fin 3) (Fin 3) ℝ) i j) (symmB 3 (radialNodes r) i j)) ∧
    (∀ i, close ((![0.09490592, 0.19080837, 0.04761905] : Fin 3 → ℝ) i) (symmW 3 (radialNodes r) i)) := by
  have h : Real.sqrt 15 ^ 2 = 15 := Real.sq_sqrt (by norm_num)
  have hp : 0 < Real.sqrt 15 := Real.sqrt_pos.2 (by norm_num)
  obtain ⟨l, u⟩ := sqrt15
  have hn : radialNodes r = ![node0 (Real.sqrt 15), node1 (Real.sqrt 15), 1] := by
    rw [(jac_roots r).1 ⟨hr, hlt⟩]
    ext i
    fin_cases i <;> rfl
  rw [hn]
  refine ⟨fun i j => ?_, fun i => ?_⟩
  · have e := congrFun (congrFun (br_exact h hp) i) j
    rw [Matrix.of_apply] at e
    rw [e]
    generalize Real.sqrt 15 = s at l u
    fin_cases i <;> fin_cases j <;>
      simp only [Matrix.of_apply, Fin.zero_eta, Fin.mk_one, Fin.reduceFinMk, Matrix.cons_val', Matrix.cons_val_zero,
        Matrix.cons_val_one, Matrix.cons_val] <;>
      exact close_of (lo := _) (hi := _) le_rfl le_rfl (by linarith) (by linarith)
  · rw [wr_exact h hp]
    generalize Real.sqrt 15 = s at l u
    fin_cases i <;>
      simp only [Fin.zero_eta, Fin.mk_one, Fin.reduceFinMk, Matrix.cons_val_zero,
        Matrix.cons_val_one, Matrix.cons_val] <;>
      exact close_of (lo := _) (hi := _) le_rfl le_rfl (by linarith) (by linarith)

/-! ### The axial operator -/

theorem px4 {a b c d : ℝ} (ab : a ≠ b) (ac : a ≠ c) (ad : a ≠ d) (bc : b ≠ c) (bd : b ≠ d) (cd : c ≠ d) :
    ((px ![a, b, c, d] 0).1 = (a - b) * (a - c) * (a - d) ∧
      (px ![a, b, c, d] 0).2.1 = 2 * ((a - b) * (a - c) + (a - b) * (a - d) + (a - c) * (a - d))) ∧
    ((px ![a, b, c, d] 1).1 = (b - a) * (b - c) * (b - d) ∧
      (px ![a, b, c, d] 1).2.1 = 2 * ((b - a) * (b - c) + (b - a) * (b - d) + (b - c) * (b - d))) ∧
    ((px ![a, b, c, d] 2).1 = (c - a) * (c - b) * (c - d) ∧
      (px ![a, b, c, d] 2).2.1 = 2 * ((c - a) * (c - b) + (c - a) * (c - d) + (c - b) * (c - d))) ∧
    ((px ![a, b, c, d] 3).1 = (d - a) * (d - b) * (d - c) ∧
      (px ![a, b, c, d] 3).2.1 = 2 * ((d - a) * (d - b) + (d - a) * (d - c) + (d - b) * (d - c))) := by
  have e1 := sub_ne_zero.2 ab
  have e2 := sub_ne_zero.2 ac
  have e3 := sub_ne_zero.2 ad
  have e4 := sub_ne_zero.2 bc
  have e5 := sub_ne_zero.2 bd
  have e6 := sub_ne_zero.2 cd
  have f1 := sub_ne_zero.2 ab.symm
  have f2 := sub_ne_zero.2 ac.symm
  have f3 := sub_ne_zero.2 ad.symm
  have f4 := sub_ne_zero.2 bc.symm
  have f5 := sub_ne_zero.2 bd.symm
  have f6 := sub_ne_zero.2 cd.symm
  refine ⟨⟨?_, ?_⟩, ⟨?_, ?_⟩, ⟨?_, ?_⟩, ⟨?_, ?_⟩⟩ <;>
    simp [px, pxColumn, recur, List.ofFn_succ, e1, e2, e3, e4, e5, e6, f1, f2, f3, f4, f5, f6] <;> ring

section
variable {t : ℝ}

/-- The interior axial nodes; `t` is the root of 3. -/
noncomputable def leg0 (t : ℝ) : ℝ := 1 / 2 - t / 6
noncomputable def leg1 (t : ℝ) : ℝ := 1 / 2 + t / 6

/-- Exact entries of `Az`. -/
theorem az_exact (h : t ^ 2 = 3) (ht : 0 < t) :
    Matrix.of (aMat ![0, leg0 t, leg1 t, 1]) =
      !![-7, 3 + 3 * t, 3 - 3 * t, 1;
         -1 - t, t, t, 1 - t;
         t - 1, -t, -t, 1 + t;
         -1, 3 * t - 3, -3 - 3 * t, 7] := by
  have h2 : t < 2 := by nlinarith
  have n01 : (0:ℝ) ≠ leg0 t := by unfold leg0; intro hh; linarith
  have n02 : (0:ℝ) ≠ leg1 t := by unfold leg1; intro hh; linarith
  have n12 : leg0 t ≠ leg1 t := by unfold leg0 leg1; intro hh; linarith
  have n13 : leg0 t ≠ 1 := by unfold leg0; intro hh; linarith
  have n23 : leg1 t ≠ 1 := by unfold leg1; intro hh; linarith
  obtain ⟨⟨p00, p01⟩, ⟨p10, p11⟩, ⟨p20, p21⟩, p30, p31⟩ := px4 n01 n02 zero_ne_one n12 n13 n23
  have t3 : t ^ 3 = 3 * t := by linear_combination t * h
  have t4 : t ^ 4 = 9 := by linear_combination (t ^ 2 + 3) * h
  have t5 : t ^ 5 = 9 * t := by linear_combination (t ^ 3 + 3 * t) * h
  have t6 : t ^ 6 = 27 := by linear_combination (t ^ 4 + 3 * t ^ 2 + 9) * h
  have t7 : t ^ 7 = 27 * t := by rw [show t ^ 7 = t ^ 6 * t by ring, t6]
  have i12 : (leg0 t - leg1 t)⁻¹ = -t := by
    refine inv_eq_of_mul_eq_one_right ?_; unfold leg0 leg1; linear_combination (1 / 3) * h
  have i21 : (leg1 t - leg0 t)⁻¹ = t := by
    refine inv_eq_of_mul_eq_one_right ?_; unfold leg0 leg1; linear_combination (1 / 3) * h
  have i1 : (leg0 t)⁻¹ = 3 + t := by
    refine inv_eq_of_mul_eq_one_right ?_; unfold leg0; linear_combination (-1 / 6) * h
  have i2 : (leg1 t)⁻¹ = 3 - t := by
    refine inv_eq_of_mul_eq_one_right ?_; unfold leg1; linear_combination (-1 / 6) * h
  have j1 : (leg0 t - 1)⁻¹ = t - 3 := by
    refine inv_eq_of_mul_eq_one_right ?_; unfold leg0; linear_combination (-1 / 6) * h
  have j2 : (leg1 t - 1)⁻¹ = -3 - t := by
    refine inv_eq_of_mul_eq_one_right ?_; unfold leg1; linear_combination (-1 / 6) * h
  have k1 : (1 - leg0 t)⁻¹ = 3 - t := by
    refine inv_eq_of_mul_eq_one_right ?_; unfold leg0; linear_combination (-1 / 6) * h
  have k2 : (1 - leg1 t)⁻¹ = 3 + t := by
    refine inv_eq_of_mul_eq_one_right ?_; unfold leg1; linear_combination (-1 / 6) * h
  ext i j
  fin_cases i <;> fin_cases j <;>
    simp only [aMat, Matrix.of_apply, Fin.zero_eta, Fin.mk_one, Fin.reduceFinMk, p00, p01, p10, p11, p20, p21, p30, p31,
      if_true, Matrix.cons_val_zero, Matrix.cons_val_one, Matrix.cons_val, Fin.reduceEq, if_false, div_eq_mul_inv, mul_inv,
      zero_sub, sub_zero, inv_neg, i12, i21, i1, i2, j1, j2, k1, k2, inv_one, one_mul, mul_one] <;>
    unfold leg0 leg1 <;> norm_num <;> ring_nf <;> simp only [h, t3, t4, t5, t6, t7] <;> ring_nf
end

/-- The orthogonality integral of `roots_sh_legendre(2)`. -/
theorem leg_integral (e1 e2 a b : ℝ) :
    ∫ u in (0:ℝ)..1, (1 - u) ^ ((1 : ℝ) - 1) * u ^ ((1 : ℝ) - 1) * ((u ^ 2 - e1 * u + e2) * (a * u + b)) =
      a * (1 / 4 - e1 / 3 + e2 / 2) + b * (1 / 3 - e1 / 2 + e2) := by
  have h : ∀ u : ℝ, (1 - u) ^ ((1 : ℝ) - 1) * u ^ ((1 : ℝ) - 1) * ((u ^ 2 - e1 * u + e2) * (a * u + b)) =
      a * u ^ 3 + (b - e1 * a) * u ^ 2 + (e2 * a - e1 * b) * u ^ 1 + (e2 * b) * u ^ 0 := by
    intro u
    rw [sub_self, Real.rpow_zero, Real.rpow_zero]
    ring
  simp only [h]
  have i (c : ℝ) (k : ℕ) : IntervalIntegrable (fun u : ℝ => c * u ^ k) MeasureTheory.volume 0 1 :=
    (continuous_const.mul (continuous_pow k)).intervalIntegrable _ _
  rw [intervalIntegral.integral_add (((i _ 3).add (i _ 2)).add (i _ 1)) (i _ 0),
    intervalIntegral.integral_add ((i _ 3).add (i _ 2)) (i _ 1),
    intervalIntegral.integral_add (i _ 3) (i _ 2)]
  simp only [intervalIntegral.integral_const_mul, integral_pow]
  norm_num
  ring

theorem leg_roots (r : Fin 2 → ℝ) :
    (Spec.ShJacobiRoots 2 1 1 r ∧ r 0 < r 1) ↔ r = ![leg0 (Real.sqrt 3), leg1 (Real.sqrt 3)] := by
  set s := Real.sqrt 3 with hs
  have h : s ^ 2 = 3 := Real.sq_sqrt (by norm_num)
  have hp : 0 < s := Real.sqrt_pos.2 (by norm_num)
  have h4 : s < 2 := by nlinarith
  have key : ∀ a b : ℝ, ∫ u in (0:ℝ)..1, (1 - u) ^ ((1 : ℝ) - 1) * u ^ ((1 : ℝ) - 1) *
      ((∏ i, (u - r i)) * (C a * X + C b : ℝ[X]).eval u) =
      a * (1 / 4 - (r 0 + r 1) / 3 + r 0 * r 1 / 2) + b * (1 / 3 - (r 0 + r 1) / 2 + r 0 * r 1) := by
    intro a b
    rw [← leg_integral]
    congr 1; ext u
    rw [Fin.prod_univ_two]
    simp only [eval_add, eval_mul, eval_C, eval_X]
    ring
  constructor
  · rintro ⟨⟨-, -, ho⟩, hlt⟩
    have d1 : (C (1:ℝ) * X + C 0 : ℝ[X]).degree < (2 : ℕ) := by
      refine lt_of_le_of_lt (degree_linear_le) (by norm_num)
    have d0 : (C (0:ℝ) * X + C 1 : ℝ[X]).degree < (2 : ℕ) := by
      refine lt_of_le_of_lt (degree_linear_le) (by norm_num)
    have e1 := ho _ d1
    have e0 := ho _ d0
    rw [key] at e1 e0
    have hsum : r 0 + r 1 = 1 := by linarith
    have hprod : r 0 * r 1 = 1 / 6 := by linarith
    have hd : (r 1 - r 0) ^ 2 = (s / 3) ^ 2 := by
      have : (r 1 - r 0) ^ 2 = (r 0 + r 1) ^ 2 - 4 * (r 0 * r 1) := by ring
      rw [this, hsum, hprod]
      linear_combination (-1 / 9) * h
    have hd' : r 1 - r 0 = s / 3 := by
      rcases sq_eq_sq_iff_eq_or_eq_neg.1 hd with h' | h'
      · exact h'
      · linarith
    ext i
    fin_cases i
    · simp [leg0]; linarith
    · simp [leg1]; linarith
  · rintro rfl
    refine ⟨⟨?_, ?_, ?_⟩, ?_⟩
    · intro i j hij
      fin_cases i <;> fin_cases j <;> simp [leg0, leg1] at hij ⊢ <;> linarith
    · intro i
      fin_cases i <;> simp [leg0, leg1] <;> constructor <;> linarith
    · intro g hg
      have hg1 : g.degree ≤ 1 := by
        refine (degree_le_iff_coeff_zero g 1).2 fun m hm => (degree_lt_iff_coeff_zero g 2).1 hg m ?_
        exact_mod_cast hm
      rw [eq_X_add_C_of_degree_le_one hg1, key]
      have e1 : leg0 s + leg1 s = 1 := by unfold leg0 leg1; ring
      have e2 : leg0 s * leg1 s = 1 / 6 := by unfold leg0 leg1; linear_combination (-1 / 36) * h
      simp only [Matrix.cons_val_zero, Matrix.cons_val_one]
      rw [e1, e2]; ring
    · simp [leg0, leg1]; linarith

theorem sqrt3 : (1.7320508075 : ℝ) ≤ Real.sqrt 3 ∧ Real.sqrt 3 ≤ 1.7320508076 :=
  ⟨Real.le_sqrt_of_sq_le (by norm_num), Real.sqrt_le_iff.2 ⟨by norm_num, by norm_num⟩⟩

/-- `test_Az` (test_colloc.py:28-34) holds of the model. -/
theorem ref_axial (r : Fin 2 → ℝ) (hr : Spec.ShJacobiRoots 2 1 1 r) (hlt : r 0 < r 1) (i j : Fin 4) :
    close ((!![-7, 8.19615242, -2.19615242, 1; -2.73205081, 1.73205081, 1.73205081, -0.73205081;
        0.73205081, -1.73205081, -1.73205081, 2.73205081; -1, 2.19615242, -8.19615242, 7] :
        Matrix (Fin 4) (Fin 4) ℝ) i j) (aMat (axialNodes r) i j) := by
  have h : Real.sqrt 3 ^ 2 = 3 := Real.sq_sqrt (by norm_num)
  have hp : 0 < Real.sqrt 3 := Real.sqrt_pos.2 (by norm_num)
  obtain ⟨l, u⟩ := sqrt3
  have hn : axialNodes r = ![0, leg0 (Real.sqrt 3), leg1 (Real.sqrt 3), 1] := by
    rw [(leg_roots r).1 ⟨hr, hlt⟩]
    ext i
    fin_cases i <;> rfl
  have e := congrFun (congrFun (az_exact h hp) i) j
  rw [Matrix.of_apply] at e
  rw [hn, e]
  generalize Real.sqrt 3 = s at l u
  fin_cases i <;> fin_cases j <;>
    simp only [Matrix.of_apply, Fin.zero_eta, Fin.mk_one, Fin.reduceFinMk, Matrix.cons_val', Matrix.cons_val_zero,
      Matrix.cons_val_one, Matrix.cons_val] <;>
    exact close_of (lo := _) (hi := _) le_rfl le_rfl (by linarith) (by linarith)

/-! ### Finite elements -/

theorem one_root (r : Fin 1 → ℝ) : Spec.ShJacobiRoots 1 1 1 r ↔ r = ![1 / 2] := by
  have key : ∀ c : ℝ, ∫ u in (0:ℝ)..1, (1 - u) ^ ((1 : ℝ) - 1) * u ^ ((1 : ℝ) - 1) *
      ((∏ i, (u - r i)) * (C c : ℝ[X]).eval u) = c * (1 / 2 - r 0) := by
    intro c
    have h : ∀ u : ℝ, (1 - u) ^ ((1 : ℝ) - 1) * u ^ ((1 : ℝ) - 1) * ((∏ i, (u - r i)) * (C c : ℝ[X]).eval u) =
        c * u ^ 1 + (-(c * r 0)) * u ^ 0 := by
      intro u
      rw [sub_self, Real.rpow_zero, Real.rpow_zero, Fin.prod_univ_one, eval_C]
      ring
    simp only [h]
    have i (c : ℝ) (k : ℕ) : IntervalIntegrable (fun u : ℝ => c * u ^ k) MeasureTheory.volume 0 1 :=
      (continuous_const.mul (continuous_pow k)).intervalIntegrable _ _
    rw [intervalIntegral.integral_add (i _ 1) (i _ 0)]
    simp only [intervalIntegral.integral_const_mul, integral_pow]
    norm_num
    ring
  constructor
  · rintro ⟨-, -, ho⟩
    have e := ho (C 1) (lt_of_le_of_lt degree_C_le (by norm_num))
    rw [key] at e
    ext i
    fin_cases i
    simp; linarith
  · rintro rfl
    refine ⟨fun i j _ => Subsingleton.elim i j, fun i => ?_, fun g hg => ?_⟩
    · fin_cases i; norm_num
    · have hg1 : g.degree ≤ 0 := by
        refine (degree_le_iff_coeff_zero g 0).2 fun m hm => (degree_lt_iff_coeff_zero g 1).1 hg m ?_
        exact_mod_cast hm
      rw [eq_C_of_degree_le_zero hg1, key]
      simp

/-- `test_OCFE_roots` and `test_OCFE_Az` (test_colloc.py:37-50) hold of the model, without rounding. -/
theorem ref_ocfe (r : Fin 1 → ℝ) (hr : Spec.ShJacobiRoots 1 1 1 r) :
    advX 2 3 (List.ofFn (axialNodes r)) = [0, 0.25, 0.5, 0.75, 1] ∧
    ∀ i j : Fin 5, advOp 2 3 (arr2 (aMat (axialNodes r))) i j =
      (!![0, 0, 0, 0, 0; -2, 0, 2, 0, 0; 1, -4, 0, 4, -1; 0, 0, -2, 0, 2; 0, 0, 2, -8, 6] :
        Matrix (Fin 5) (Fin 5) ℝ) i j := by
  have hn : axialNodes r = ![0, 1 / 2, 1] := by
    rw [(one_root r).1 hr]
    ext i
    fin_cases i <;> rfl
  rw [hn]
  refine ⟨?_, ?_⟩
  · simp [advX, npDelete, List.range_succ, List.ofFn_succ, List.zipIdx]
    norm_num
  · have p0 := px3_0 (a := 0) (b := 1 / 2) (c := 1) (by norm_num) (by norm_num)
    have p1 := px3_1 (a := 0) (b := 1 / 2) (c := 1) (by norm_num) (by norm_num)
    have p2 := px3_2 (a := 0) (b := 1 / 2) (c := 1) (by norm_num) (by norm_num)
    have hA : Matrix.of (aMat ![(0:ℝ), 1 / 2, 1]) = !![-3, 4, -1; -1, 0, 1; 1, -4, 3] := by
      ext i j
      fin_cases i <;> fin_cases j <;>
        simp only [aMat, Matrix.of_apply, Fin.zero_eta, Fin.mk_one, Fin.reduceFinMk, p0, p1, p2, if_true,
          Matrix.cons_val_zero, Matrix.cons_val_one, Matrix.cons_val, Fin.reduceEq, if_false] <;> norm_num
    have hA' : aMat ![(0:ℝ), 1 / 2, 1] = fun i j => (!![-3, 4, -1; -1, 0, 1; 1, -4, 3] : Matrix (Fin 3) (Fin 3) ℝ) i j := by
      ext i j; exact congrFun (congrFun hA i) j
    rw [hA']
    intro i j
    fin_cases i <;> fin_cases j <;>
      simp [advOp, advBlocks, advCont, setBlock, zeroRow, arr2, List.range_succ] <;> norm_num

/-! ### Small columns -/

/-- The nine numbers of a small column, in the order of `sc.value.values`. -/
def SmallCol.values (c : SmallCol) : List (Option ℝ) :=
  [c.diam, c.length, c.partDiam, c.ebct, c.duration, c.loading, c.Q, c.mass, c.water]

/-- All are numbers, each close to the expected one. -/
def allclose (l : List (Option ℝ)) (ref : List ℝ) : Prop :=
  List.Forall₂ (fun o e => ∃ x, o = some x ∧ close x e) l ref

theorem close_pos {x e : ℝ} (he : 0 ≤ e) (h1 : e * (1 - 1e-5) ≤ x) (h2 : x ≤ e * (1 + 1e-5)) : close x e := by
  unfold close
  rw [abs_of_nonneg he, abs_le]
  constructor <;> linarith

/-- The column of PSDM_extra.py:307-316. -/
noncomputable def ref15_14 : LargeArgs where
  L := some (.units 83.3 "cm")
  diam := some (.units 5.1 "cm")
  flrt := some (.units 170.1 "ml/min")
  partDiam := some (.num 1.0)
  mass := some (.units 833.8 "g")
  time := some (.units 100 "day")
  density := some (.num 0.49)

/-- The assertion at PSDM_extra.py:304-330 holds of the model. -/
theorem ref_rssct : ∃ sc, calcRSSCT (buildLarge ref15_14) (some (.units 1.10 "cm")) (some (.num 0.21)) none 0 = .ok sc ∧
    allclose sc.values [1.1, 17.493, 0.21, 0.4411735945442268, 4.409999999999999, 23.790635091937293,
      37.68166089965399, 8.145835355873526, 239.29361937716263] := by
  refine ⟨_, rfl, ?_⟩
  have hpi := Real.pi_pos
  have h1 := Real.pi_gt_d6
  have h2 := Real.pi_lt_d6
  refine .cons ⟨_, rfl, ?_⟩ (.cons ⟨_, rfl, ?_⟩ (.cons ⟨_, rfl, ?_⟩ (.cons ⟨_, rfl, ?_⟩ (.cons ⟨_, rfl, ?_⟩
    (.cons ⟨_, rfl, ?_⟩ (.cons ⟨_, rfl, ?_⟩ (.cons ⟨_, rfl, ?_⟩ (.cons ⟨_, rfl, ?_⟩ .nil)))))))) <;>
    refine close_pos (by norm_num) ?_ ?_ <;> norm_num
  all_goals try field_simp
  all_goals try norm_num
  all_goals try linarith

/-- The column of PSDM_extra.py:335-342. -/
noncomputable def ref15_15 : LargeArgs where
  L := some (.units 71.4 "cm")
  diam := some (.units 40.64 "cm")
  flrt := some (.units 18.9016 "l/min")
  partDiam := some (.num 1.62)
  mass := some (.units 40751.92 "g")
  time := some (.units 288 "day")
  density := some (.num 0.44)

/-- The assertion at PSDM_extra.py:346-356 holds of the model. -/
theorem ref_rssct2 : ∃ sc, calcRSSCT (buildLarge ref15_15) (some (.units 1.10 "cm")) (some (.num 0.212)) none 0 = .ok sc ∧
    allclose sc.values [1.1, 9.343703703703705, 0.212, 0.0839148101156238, 4.932126200274347, 66.8084955980663,
      105.8170606465034, 3.9070321625037034, 751.5404600409199] := by
  refine ⟨_, rfl, ?_⟩
  have hpi := Real.pi_pos
  have h1 := Real.pi_gt_d6
  have h2 := Real.pi_lt_d6
  refine .cons ⟨_, rfl, ?_⟩ (.cons ⟨_, rfl, ?_⟩ (.cons ⟨_, rfl, ?_⟩ (.cons ⟨_, rfl, ?_⟩ (.cons ⟨_, rfl, ?_⟩
    (.cons ⟨_, rfl, ?_⟩ (.cons ⟨_, rfl, ?_⟩ (.cons ⟨_, rfl, ?_⟩ (.cons ⟨_, rfl, ?_⟩ .nil)))))))) <;>
    refine close_pos (by norm_num) ?_ ?_ <;> norm_num
  all_goals try field_simp
  all_goals try norm_num
  all_goals try linarith

/-! ### Alkalinity -/

/-- IonExchangeModel/test/data/alkalinity_test_mg.xlsx and alkalinity_test_meq.xlsx: the `ions` sheet with the given
unit of alkalinity, and the first row of the `Cin` sheet with the given alkalinity. -/
noncomputable def refIons (u : String) : List Ion :=
  [⟨"CHLORIDE", 35.45, 1, "meq", none, none⟩, ⟨"SULFATE", 96.06, 2, "meq", none, none⟩,
   ⟨"NITRATE", 62, 1, "meq", none, none⟩, ⟨"ALKALINITY", 100.09, 2, u, none, none⟩]
noncomputable def refCin (a : ℝ) : Columns :=
  [("CHLORIDE", [1.51]), ("SULFATE", [0.52]), ("NITRATE", [0.74]), ("ALKALINITY", [a]), ("PH", [8.3])]

theorem rpow_ratio {q : ℝ} {m n : ℕ} (hq : q * n = m) : ((10:ℝ) ^ (-q)) ^ n = (10 ^ m)⁻¹ := by
  rw [← Real.rpow_natCast, ← Real.rpow_mul (by norm_num), neg_mul, hq, Real.rpow_neg (by norm_num), Real.rpow_natCast]

theorem alpha_ref : 0.979817 ≤ carbAlpha 8.3 ∧ carbAlpha 8.3 ≤ 0.979822 := by
  have y0 : (0:ℝ) < (10:ℝ) ^ (-1.88 : ℝ) := Real.rpow_pos_of_pos (by norm_num) _
  have z0 : (0:ℝ) < (10:ℝ) ^ (-2.13 : ℝ) := Real.rpow_pos_of_pos (by norm_num) _
  have ye := rpow_ratio (q := 1.88) (m := 47) (n := 25) (by norm_num)
  have ze := rpow_ratio (q := 2.13) (m := 213) (n := 100) (by norm_num)
  have hα : carbAlpha 8.3 = 1 / ((10:ℝ) ^ (-1.88 : ℝ) + 1 + (10:ℝ) ^ (-2.13 : ℝ)) := by
    have h0 : (0:ℝ) < (10:ℝ) ^ (-8.3 : ℝ) := Real.rpow_pos_of_pos (by norm_num) _
    have k10 : (0:ℝ) < k1 := Real.rpow_pos_of_pos (by norm_num) _
    have e1 : (10:ℝ) ^ (-8.3 : ℝ) = k1 * (10:ℝ) ^ (-1.88 : ℝ) := by
      unfold k1; rw [← Real.rpow_add (by norm_num)]; norm_num
    have e2 : k2 = (10:ℝ) ^ (-8.3 : ℝ) * (10:ℝ) ^ (-2.13 : ℝ) := by
      unfold k2; rw [← Real.rpow_add (by norm_num)]; norm_num
    unfold carbAlpha
    simp only
    rw [e2, e1]
    field_simp
  have y1 : (0.013182 : ℝ) ≤ (10:ℝ) ^ (-1.88 : ℝ) :=
    le_of_pow_le_pow_left₀ (n := 25) (by norm_num) y0.le (by rw [ye]; norm_num)
  have y2 : (10:ℝ) ^ (-1.88 : ℝ) ≤ 0.013183 :=
    le_of_pow_le_pow_left₀ (n := 25) (by norm_num) (by norm_num) (by rw [ye]; norm_num)
  have z1 : (0.007413 : ℝ) ≤ (10:ℝ) ^ (-2.13 : ℝ) :=
    le_of_pow_le_pow_left₀ (n := 100) (by norm_num) z0.le (by rw [ze]; norm_num)
  have z2 : (10:ℝ) ^ (-2.13 : ℝ) ≤ 0.007414 :=
    le_of_pow_le_pow_left₀ (n := 100) (by norm_num) (by norm_num) (by rw [ze]; norm_num)
  rw [hα]
  constructor
  · rw [le_div_iff₀ (by linarith)]; nlinarith
  · rw [div_le_iff₀ (by linarith)]; nlinarith

/-- The first entry of each list of test_alkalinity.py:21-25, as asserted at 36-46. -/
theorem ref_alkalinity (u : String) (x ref : ℝ)
    (h : (u, x, ref) = ("mg", 100, 1.95788) ∨ (u, x, ref) = ("meq", 2.5, 2.44955)) :
    ∃ d b, loadIons (refIons u) (refCin x) = .ok d ∧ column d.cin "BICARBONATE" = some [b] ∧ close b ref := by
  obtain ⟨a1, a2⟩ := alpha_ref
  have hu : u ∈ Spec.accepted .conc := by
    rcases h with h | h <;> (injection h with h1 h2; subst h1; decide)
  have hg : GoodIons (refIons u) := by
    refine ⟨by simp [refIons], fun i hi => ?_⟩
    simp only [refIons, List.mem_cons, List.not_mem_nil, or_false] at hi
    rcases hi with rfl | rfl | rfl | rfl
    · exact ⟨by norm_num, by norm_num, by decide⟩
    · exact ⟨by norm_num, by norm_num, by decide⟩
    · exact ⟨by norm_num, by norm_num, by decide⟩
    · exact ⟨by norm_num, by norm_num, hu⟩
  obtain ⟨d, f, h1, h2, h3, -, -⟩ := c11_bicarbonate hg (cs := refCin x)
    (a := ⟨"ALKALINITY", 100.09, 2, u, none, none⟩) (alk := [x]) (ph := [8.3]) (by simp [refIons])
    (by simp [refIons]) (by
      intro i hi
      simp only [refIons, List.mem_cons, List.not_mem_nil, or_false] at hi
      rcases hi with rfl | rfl | rfl | rfl <;> simp [refCin, column])
    (by simp [refCin, column]) (by simp [refCin, column]) (by simp [refCin, column])
  refine ⟨d, _, h1, h3, ?_⟩
  have hf : f.factor = ionFac ⟨"ALKALINITY", 100.09, 2, u, none, none⟩ u "meq" := by
    have := (ionFac_conv (i := ⟨"ALKALINITY", 100.09, 2, u, none, none⟩) ⟨by norm_num, by norm_num⟩ (a := u) hu
      (by decide : "meq" ∈ Spec.accepted .conc) []).1
    rw [this] at h2
    injection h2 with h2
    rw [← h2]
  rw [hf]
  rcases h with h | h <;> (injection h with e1 e2; injection e2 with e2 e3; subst e1 e2 e3) <;>
    refine close_pos (by norm_num) ?_ ?_ <;> simp only [ionFac] <;> generalize carbAlpha 8.3 = α at a1 a2 <;>
    norm_num [coefOf, concTable, (by decide : ¬ ("meq" = "mg"))] at a1 a2 ⊢ <;> linarith

end WTM
