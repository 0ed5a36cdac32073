import Verif.Lemmas.Quad
import Mathlib.Tactic.Linarith

/-! The radial operators of `colloc.py`: summation by parts and the profiles they do not move. -/
set_option autoImplicit false
namespace WTM
open Polynomial BigOperators

/-- Polynomial of degree `≤ m` through the values `q` at the nodes `u`. -/
noncomputable def interpPoly {n : ℕ} (u q : Fin n → ℝ) : ℝ[X] := ∑ j, C (q j) * lag u j

section
variable {n : ℕ} {u : Fin n → ℝ}

theorem interpPoly_degree (hu : Function.Injective u) (_hn : 0 < n) (q : Fin n → ℝ) :
    (interpPoly u q).degree < n := by
  unfold interpPoly
  refine lt_of_le_of_lt (degree_sum_le _ _) ((Finset.sup_lt_iff (WithBot.bot_lt_coe n)).2 (fun j _ => ?_))
  refine lt_of_le_of_lt (degree_mul_le _ _) ?_
  refine lt_of_le_of_lt (add_le_add_left degree_C_le _) ?_
  rw [zero_add]
  exact lag_degree hu j

theorem interpPoly_eval (hu : Function.Injective u) (q : Fin n → ℝ) (i : Fin n) :
    (interpPoly u q).eval (u i) = q i := by
  unfold interpPoly
  rw [eval_finsetSum, Finset.sum_eq_single i]
  · rw [eval_mul, eval_C, lag_self hu, mul_one]
  · intro j _ hj
    rw [eval_mul, lag_ne (Ne.symm hj), mul_zero]
  · intro h; exact absurd (Finset.mem_univ i) h

theorem interpPoly_natDegree {m : ℕ} {u : Fin (m + 1) → ℝ} (hu : Function.Injective u) (q : Fin (m + 1) → ℝ) :
    (interpPoly u q).natDegree ≤ m := by
  have h := interpPoly_degree hu (Nat.succ_pos m) q
  by_cases h0 : interpPoly u q = 0
  · rw [h0]; simp
  · rw [degree_eq_natDegree h0] at h
    have : (interpPoly u q).natDegree < m + 1 := by exact_mod_cast h
    omega

/-- The radial operator on polynomials of the squared radius. -/
noncomputable def radLap (a : ℝ) (g : ℝ[X]) : ℝ[X] :=
  C (2 * a) * derivative g + C 4 * (X * derivative (derivative g))

theorem symmB_interp (hu : Function.Injective u) (hn : 0 < n) (a : ℝ) (q : Fin n → ℝ) (k : Fin n) :
    ∑ l, symmB a u k l * q l = (radLap a (interpPoly u q)).eval (u k) := by
  have hd := interpPoly_degree hu hn q
  have h1 := aMat_apply hu hd k
  have h2 := bMat_apply hu hd k
  simp only [interpPoly_eval hu] at h1 h2
  unfold radLap
  simp only [eval_add, eval_mul, eval_C, eval_X]
  rw [← h1, ← h2, Finset.mul_sum, Finset.mul_sum, Finset.mul_sum, ← Finset.sum_add_distrib]
  refine Finset.sum_congr rfl (fun l _ => ?_)
  unfold symmB; ring

theorem symmA_interp (hu : Function.Injective u) (hn : 0 < n) (q : Fin n → ℝ) (k : Fin n) :
    ∑ l, symmA u k l * q l = 2 * symmX u k * (derivative (interpPoly u q)).eval (u k) := by
  have h1 := aMat_apply hu (interpPoly_degree hu hn q) k
  simp only [interpPoly_eval hu] at h1
  rw [← h1, Finset.mul_sum]
  refine Finset.sum_congr rfl (fun l _ => ?_)
  unfold symmA; ring

theorem radLap_coeff (a : ℝ) (g : ℝ[X]) (k : ℕ) :
    (radLap a g).coeff k = (2 * a + 4 * k) * ((k + 1) * g.coeff (k + 1)) := by
  unfold radLap
  rw [coeff_add, coeff_C_mul, coeff_C_mul, coeff_derivative]
  rcases k with _ | k
  · simp
  · rw [coeff_X_mul, coeff_derivative, coeff_derivative]
    push_cast; ring

/-- Only constants are annihilated. -/
theorem radLap_zero {a : ℝ} (ha : 0 < a) {g : ℝ[X]} (h : radLap a g = 0) : g = C (g.coeff 0) := by
  ext k
  rcases k with _ | k
  · simp
  · have := radLap_coeff a g k
    rw [h, coeff_zero] at this
    have h1 : (2 * a + 4 * (k:ℝ)) ≠ 0 := by positivity
    have h2 : ((k:ℝ) + 1) ≠ 0 := by positivity
    rw [coeff_C, if_neg (Nat.succ_ne_zero k)]
    rcases mul_eq_zero.1 this.symm with h' | h'
    · exact absurd h' h1
    · rcases mul_eq_zero.1 h' with h'' | h''
      · exact absurd h'' h2
      · exact h''

theorem radLap_degree {a : ℝ} {m : ℕ} {g : ℝ[X]} (hg : g.degree < (m + 1 : ℕ)) :
    (radLap a g).degree < m := by
  rw [degree_lt_iff_coeff_zero] at hg ⊢
  intro k hk
  rw [radLap_coeff, hg (k + 1) (by omega), mul_zero, mul_zero]

end

section
variable {m : ℕ} {a : ℝ} {jac : Fin m → ℝ}

/-- A profile at rest at the interior nodes is uniform. -/
theorem symmB_kernel (ha : 0 < a) (hj : Function.Injective jac) (h1 : ∀ i, jac i < 1)
    (q : Fin (m + 1) → ℝ) (h : ∀ k : Fin m, ∑ l, symmB a (radialNodes jac) k.castSucc l * q l = 0)
    (k l : Fin (m + 1)) : q k = q l := by
  have hu := radialNodes_inj hj h1
  set u := radialNodes jac with hudef
  set g := interpPoly u q with hg
  have hz : radLap a g = 0 := by
    refine eq_zero_of_degree_lt_of_eval_finset_eq_zero (Finset.univ.image jac) ?_ ?_
    · rw [Finset.card_image_of_injective _ hj, Finset.card_univ, Fintype.card_fin]
      exact radLap_degree (interpPoly_degree hu (Nat.succ_pos m) q)
    · intro x hx
      obtain ⟨i, -, rfl⟩ := Finset.mem_image.1 hx
      have := h i
      rw [symmB_interp hu (Nat.succ_pos m)] at this
      have e : u i.castSucc = jac i := by rw [hudef, radialNodes, Fin.snoc_castSucc]
      rw [← e]; exact this
  have hc := radLap_zero ha hz
  rw [← interpPoly_eval hu q k, ← interpPoly_eval hu q l, ← hg, hc, eval_C, eval_C]

/-- Summation by parts for the radial operators. -/
theorem symm_parts (ha : 0 < a) (hj : Spec.ShJacobiRoots m (a / 2 + 1) (a / 2) jac) (p q : Fin (m + 1) → ℝ) :
    ∑ k, symmW a (radialNodes jac) k * (p k * ∑ l, symmB a (radialNodes jac) k l * q l) =
      p (Fin.last m) * (∑ l, symmA (radialNodes jac) (Fin.last m) l * q l) -
      ∑ k, symmW a (radialNodes jac) k *
        ((∑ l, symmA (radialNodes jac) k l * p l) * ∑ l, symmA (radialNodes jac) k l * q l) := by
  have hu := radialNodes_inj hj.1 (fun i => (hj.2.1 i).2)
  have hpos := radialNodes_pos (fun i => (hj.2.1 i).1)
  have hw := fun i => symmW_eq ha hj i
  set u := radialNodes jac with hudef
  have hn := Nat.succ_pos m
  have hlast : u (Fin.last m) = 1 := by rw [hudef]; simp [radialNodes]
  set P := interpPoly u p with hP
  set G := interpPoly u q with hG
  have dP : P.natDegree ≤ m := interpPoly_natDegree hu p
  have dG : G.natDegree ≤ m := interpPoly_natDegree hu q
  have dP' : (derivative P).natDegree ≤ m - 1 := (natDegree_derivative_le P).trans (by omega)
  have dG' : (derivative G).natDegree ≤ m - 1 := (natDegree_derivative_le G).trans (by omega)
  have key : C a * (C 2 * (P * derivative G)) + 2 * X * derivative (C 2 * (P * derivative G)) =
      P * radLap a G + C 4 * (X * (derivative P * derivative G)) := by
    unfold radLap
    rw [derivative_C_mul, derivative_mul]
    have e4 : (C 4 : ℝ[X]) = 2 * C 2 := by
      have : (2 : ℝ[X]) = C 2 := rfl
      rw [this, ← C_mul]; norm_num
    rw [e4, C_mul]
    ring
  have hm := mom_ibp ha (C 2 * (P * derivative G))
  rw [key, map_add] at hm
  by_cases hm0 : m = 0
  · -- a single node: both operators vanish
    subst hm0
    have hG0 : derivative G = 0 := derivative_of_natDegree_zero (by omega)
    have hL : radLap a G = 0 := by unfold radLap; rw [hG0]; simp
    have z1 : ∀ k, ∑ l, symmB a u k l * q l = 0 := fun k => by
      rw [symmB_interp hu hn, ← hG, hL, eval_zero]
    have z2 : ∀ k, ∑ l, symmA u k l * q l = 0 := fun k => by
      rw [symmA_interp hu hn, ← hG, hG0, eval_zero, mul_zero]
    simp only [z1, z2, mul_zero, Finset.sum_const_zero, sub_zero]
  have q1 := quad_exact ha hj (f := P * radLap a G) (by
    refine natDegree_mul_le.trans ?_
    have : (radLap a G).natDegree ≤ m := natDegree_le_of_degree_le
      (radLap_degree (interpPoly_degree hu hn q)).le
    omega)
  have q2 := quad_exact ha hj (f := C 4 * (X * (derivative P * derivative G))) (by
    refine (natDegree_C_mul_le _ _).trans (natDegree_mul_le.trans ?_)
    have := natDegree_mul_le (p := derivative P) (q := derivative G)
    have h1 : (X : ℝ[X]).natDegree ≤ 1 := natDegree_X_le
    omega)
  rw [← hudef] at q1 q2
  rw [q1, q2] at hm
  simp only [hw]
  have e1 : ∀ k, p k * ∑ l, symmB a u k l * q l = (P * radLap a G).eval (u k) := by
    intro k
    rw [symmB_interp hu hn, eval_mul, hP, interpPoly_eval hu]
  have e2 : ∀ k, (∑ l, symmA u k l * p l) * ∑ l, symmA u k l * q l =
      (C 4 * (X * (derivative P * derivative G))).eval (u k) := by
    intro k
    rw [symmA_interp hu hn, symmA_interp hu hn]
    simp only [eval_mul, eval_C, eval_X]
    have : symmX u k ^ 2 = u k := Real.sq_sqrt (hpos k).le
    rw [← hP, ← hG]
    linear_combination (4 * eval (u k) (derivative P) * eval (u k) (derivative G)) * this
  have e3 : p (Fin.last m) * (∑ l, symmA u (Fin.last m) l * q l) = (C 2 * (P * derivative G)).eval 1 := by
    rw [symmA_interp hu hn, symmX, hlast, Real.sqrt_one, eval_mul, eval_mul, eval_C, ← hG]
    have := interpPoly_eval hu p (Fin.last m)
    rw [hlast, ← hP] at this
    rw [this]; ring
  simp only [e1, e2, e3]
  linarith

/-- The gradient vanishes everywhere only for a uniform profile. -/
theorem symmA_kernel (hj : Function.Injective jac) (h0 : ∀ i, 0 < jac i) (h1 : ∀ i, jac i < 1)
    (q : Fin (m + 1) → ℝ) (h : ∀ k, ∑ l, symmA (radialNodes jac) k l * q l = 0) (k l : Fin (m + 1)) :
    q k = q l := by
  have hu := radialNodes_inj hj h1
  have hpos := radialNodes_pos h0
  set u := radialNodes jac with hudef
  have hz : derivative (interpPoly u q) = 0 := by
    refine eq_zero_of_degree_lt_of_eval_finset_eq_zero (Finset.univ.image u) ?_ ?_
    · rw [Finset.card_image_of_injective _ hu, Finset.card_univ, Fintype.card_fin]
      exact lt_of_le_of_lt (degree_derivative_le) (interpPoly_degree hu (Nat.succ_pos m) q)
    · intro x hx
      obtain ⟨i, -, rfl⟩ := Finset.mem_image.1 hx
      have := h i
      rw [symmA_interp hu (Nat.succ_pos m)] at this
      rcases mul_eq_zero.1 this with h' | h'
      · have : 0 < symmX u i := Real.sqrt_pos.2 (hpos i)
        linarith
      · exact h'
  have hc : interpPoly u q = C ((interpPoly u q).coeff 0) := by
    have := natDegree_eq_zero_of_derivative_eq_zero hz
    exact eq_C_of_natDegree_eq_zero this
  rw [← interpPoly_eval hu q k, ← interpPoly_eval hu q l, hc, eval_C, eval_C]

end
end WTM
