import Verif.Props.Stationary
import Verif.Props.IexUnique

/-! C210: on grids of three and more bead points the loading of a clean bead turns negative below the surface. -/
set_option autoImplicit false
namespace WTM
open Polynomial BigOperators Set

section
variable {m : ℕ} {jac : Fin m → ℝ}

/-- The nodal polynomial of the grid satisfies a differential equation at its zeros. -/
theorem jacobi_ode (hm : 2 ≤ m) (hj : Spec.ShJacobiRoots m 2.5 1.5 jac) (k : Fin m) :
    2 * jac k * (1 - jac k) * (derivative (derivative (nod jac))).eval (jac k) +
      (3 * (1 - jac k) - 4 * jac k) * (derivative (nod jac)).eval (jac k) = 0 := by
  have h3 : (0:ℝ) < 3 := by norm_num
  have hj' : Spec.ShJacobiRoots m (3 / 2 + 1) (3 / 2) jac := by
    have e1 : (3 / 2 + 1 : ℝ) = 2.5 := by norm_num
    have e2 : (3 / 2 : ℝ) = 1.5 := by norm_num
    rw [e1, e2]; exact hj
  set N := nod jac with hN
  have hNd : N.natDegree = m := by rw [hN]; unfold nod; rw [Lagrange.natDegree_nodal]; simp
  have horth : ∀ g : ℝ[X], g.natDegree ≤ m - 1 → mom 3 ((1 - X) * N * g) = 0 := by
    intro g hg
    have hd : g.degree < m := lt_of_le_of_lt degree_le_natDegree (by exact_mod_cast (by omega : g.natDegree < m))
    have := jacobi_mom h3 hj' hd
    have e : (1 - X) * N * g = -((X - C 1) * nod jac * g) := by rw [C_1, hN]; ring
    rw [e, map_neg, this, neg_zero]
  set Q : ℝ[X] := C 2 * X * (1 - X) * derivative (derivative N) + (C 3 * (1 - X) - C 4 * X) * derivative N with hQ
  have dN1 : (derivative N).natDegree ≤ m - 1 := by
    have := natDegree_derivative_le N; rwa [hNd] at this
  have dN2 : (derivative (derivative N)).natDegree ≤ m - 2 :=
    (natDegree_derivative_le _).trans (by omega)
  have d1X : (1 - X : ℝ[X]).natDegree ≤ 1 := (natDegree_sub_le _ _).trans (by simp)
  have hQd : Q.natDegree ≤ m := by
    refine (natDegree_add_le _ _).trans (max_le ?_ ?_)
    · refine natDegree_mul_le.trans ?_
      have : (C 2 * X * (1 - X) : ℝ[X]).natDegree ≤ 2 :=
        natDegree_mul_le.trans (add_le_add ((natDegree_C_mul_le _ _).trans natDegree_X_le) d1X)
      omega
    · refine natDegree_mul_le.trans ?_
      have : (C 3 * (1 - X) - C 4 * X : ℝ[X]).natDegree ≤ 1 :=
        (natDegree_sub_le _ _).trans (max_le ((natDegree_C_mul_le _ _).trans d1X)
          ((natDegree_C_mul_le _ _).trans natDegree_X_le))
      omega
  have hQorth : ∀ h : ℝ[X], h.natDegree ≤ m - 1 → mom 3 ((1 - X) * Q * h) = 0 := by
    intro h hh
    have dh : (derivative h).natDegree ≤ m - 2 := (natDegree_derivative_le _).trans (by omega)
    have dh2 : (derivative (derivative h)).natDegree ≤ m - 2 := (natDegree_derivative_le _).trans (by omega)
    have e1 := mom_ibp h3 ((1 - X) ^ 2 * derivative N * h)
    have e2 := mom_ibp h3 ((1 - X) ^ 2 * N * derivative h)
    have p2 : (2 : ℝ[X]) = C 2 := rfl
    have p4 : (4 : ℝ[X]) = C 4 := rfl
    have id1 : C 3 * ((1 - X) ^ 2 * derivative N * h) + 2 * X * derivative ((1 - X) ^ 2 * derivative N * h) =
        (1 - X) * Q * h + C 2 * X * (1 - X) ^ 2 * derivative N * derivative h := by
      rw [hQ]
      simp only [derivative_mul, derivative_pow, derivative_sub, derivative_one, derivative_X, ← p2, ← p4]
      push_cast
      simp only [← p2]
      ring
    have id2 : C 3 * ((1 - X) ^ 2 * N * derivative h) + 2 * X * derivative ((1 - X) ^ 2 * N * derivative h) =
        C 2 * X * (1 - X) ^ 2 * derivative N * derivative h + (1 - X) * N * (C 3 * (1 - X) * derivative h -
          C 4 * X * derivative h + C 2 * X * (1 - X) * derivative (derivative h)) := by
      simp only [derivative_mul, derivative_pow, derivative_sub, derivative_one, derivative_X, ← p2, ← p4]
      push_cast
      simp only [← p2]
      ring
    have z : ∀ f g : ℝ[X], ((1 - X) ^ 2 * f * g).eval 1 = 0 := by intro f g; simp
    rw [id1, z, map_add] at e1
    rw [id2, z, map_add] at e2
    have hb : (C 3 * (1 - X) * derivative h - C 4 * X * derivative h +
        C 2 * X * (1 - X) * derivative (derivative h)).natDegree ≤ m - 1 := by
      have a1 : (C 3 * (1 - X) * derivative h).natDegree ≤ m - 1 := by
        refine natDegree_mul_le.trans ?_
        have := (natDegree_C_mul_le (3:ℝ) (1 - X)).trans d1X
        omega
      have a2 : (C 4 * X * derivative h).natDegree ≤ m - 1 := by
        refine natDegree_mul_le.trans ?_
        have := (natDegree_C_mul_le (4:ℝ) X).trans natDegree_X_le
        omega
      have a3 : (C 2 * X * (1 - X) * derivative (derivative h)).natDegree ≤ m - 1 := by
        by_cases hz : derivative (derivative h) = 0
        · rw [hz, mul_zero]; simp
        · have hne : (derivative h).natDegree ≠ 0 := fun h0 => hz (derivative_of_natDegree_zero h0)
          have := natDegree_derivative_lt hne
          refine natDegree_mul_le.trans ?_
          have h2 : (C 2 * X * (1 - X) : ℝ[X]).natDegree ≤ 2 :=
            natDegree_mul_le.trans (add_le_add ((natDegree_C_mul_le _ _).trans natDegree_X_le) d1X)
          omega
      exact (natDegree_add_le _ _).trans (max_le ((natDegree_sub_le _ _).trans (max_le a1 a2)) a3)
    rw [horth _ hb, add_zero] at e2
    rw [e2, add_zero] at e1
    exact e1
  set R : ℝ[X] := Q - C (Q.coeff m) * N with hR
  have hNm : N.coeff m = 1 := by
    have : N.Monic := Lagrange.nodal_monic
    have h1 : N.coeff N.natDegree = 1 := this
    rwa [hNd] at h1
  have hRd : R.natDegree ≤ m - 1 := by
    rw [natDegree_le_iff_coeff_eq_zero]
    intro n hn
    rw [hR, coeff_sub, coeff_C_mul]
    by_cases h : n = m
    · rw [h, hNm]; ring
    · have hlt : m < n := by omega
      rw [coeff_eq_zero_of_natDegree_lt (lt_of_le_of_lt hQd hlt),
        coeff_eq_zero_of_natDegree_lt (lt_of_eq_of_lt hNd hlt)]
      ring
  have hRR : mom 3 ((1 - X) * R * R) = 0 := by
    have e : (1 - X) * R * R = (1 - X) * Q * R - C (Q.coeff m) * ((1 - X) * N * R) := by
      conv_lhs => rw [hR]
      rw [← hR]
      ring
    rw [e, map_sub, hQorth R hRd, ← smul_eq_C_mul, map_smul, horth R hRd]; simp
  have hpos : ∀ i, 0 < mom 3 (lag (radialNodes jac) i) := by
    intro i
    rw [← symmW_eq h3 hj']
    exact (c17_positive_sum (Nat.succ_pos m) (radialNodes_inj hj.1 (fun i => (hj.2.1 i).2))
      (radialNodes_pos (fun i => (hj.2.1 i).1)) h3).1 i
  have hq := quad_exact h3 hj' (f := (1 - X) * R * R) (by
    refine natDegree_mul_le.trans ?_
    have := natDegree_mul_le (p := (1 - X : ℝ[X])) (q := R)
    omega)
  rw [hRR] at hq
  have hev : ∀ i, (radialNodes jac i) ≤ 1 := by
    intro i
    induction i using Fin.lastCases with
    | last => simp [radialNodes]
    | cast i => simp only [radialNodes, Fin.snoc_castSucc]; exact (hj.2.1 i).2.le
  have hz := (Finset.sum_eq_zero_iff_of_nonneg (fun i _ => by
    refine mul_nonneg (hpos i).le ?_
    simp only [eval_mul, eval_sub, eval_one, eval_X]
    have := hev i
    have h1 : 0 ≤ 1 - radialNodes jac i := by linarith
    rw [mul_assoc]
    exact mul_nonneg h1 (mul_self_nonneg _))).1 hq.symm k.castSucc (Finset.mem_univ _)
  have hk : radialNodes jac k.castSucc = jac k := by simp [radialNodes]
  rw [hk] at hz
  rcases mul_eq_zero.1 hz with h | h
  · exact absurd h (hpos _).ne'
  · simp only [eval_mul, eval_sub, eval_one, eval_X] at h
    have h1 : (1 - jac k) ≠ 0 := by have := (hj.2.1 k).2; linarith
    have hRk : R.eval (jac k) = 0 := by
      rcases mul_eq_zero.1 h with h | h
      · rcases mul_eq_zero.1 h with h | h
        · exact absurd h h1
        · exact h
      · exact h
    have hNk : N.eval (jac k) = 0 := Lagrange.eval_nodal_at_node (Finset.mem_univ k)
    rw [hR, eval_sub, eval_mul, hNk, mul_zero, sub_zero, hQ] at hRk
    simp only [eval_add, eval_sub, eval_mul, eval_C, eval_X, eval_one] at hRk
    linarith

/-- What the surface does to an inner point. -/
theorem surf_entry (hm : 2 ≤ m) (hj : Spec.ShJacobiRoots m 2.5 1.5 jac) (k : Fin m) :
    (1 - jac k) * (symmB 3 (radialNodes jac) k.castSucc (Fin.last m) * ∏ i, (1 - jac i)) =
      8 * jac k * ∏ j ∈ Finset.univ.erase k, (jac k - jac j) := by
  have hu := radialNodes_inj hj.1 (fun i => (hj.2.1 i).2)
  have h1 := symmB_interp hu (Nat.succ_pos m) 3 (fun l => if l = Fin.last m then ∏ i, (1 - jac i) else 0) k.castSucc
  have hN : interpPoly (radialNodes jac) (fun l => if l = Fin.last m then ∏ i, (1 - jac i) else 0) = nod jac := by
    have hd : (nod jac).degree < (m + 1 : ℕ) := by
      unfold nod
      rw [Lagrange.degree_nodal]
      simp
      exact_mod_cast Nat.lt_succ_self m
    rw [eq_sum_lag hu hd]
    unfold interpPoly
    refine Finset.sum_congr rfl fun l _ => ?_
    congr 2
    induction l using Fin.lastCases with
    | last => simp [radialNodes, nod, Lagrange.eval_nodal]
    | cast l =>
      show (if l.castSucc = Fin.last m then ∏ i, (1 - jac i) else 0) = _
      rw [if_neg (Fin.castSucc_lt_last l).ne]
      simp only [radialNodes, Fin.snoc_castSucc]
      exact (Lagrange.eval_nodal_at_node (Finset.mem_univ l)).symm
  rw [hN] at h1
  simp only [mul_ite, mul_zero, Finset.sum_ite_eq', Finset.mem_univ, if_true] at h1
  rw [h1]
  have hk : radialNodes jac k.castSucc = jac k := by simp [radialNodes]
  have hd : (derivative (nod jac)).eval (jac k) = ∏ j ∈ Finset.univ.erase k, (jac k - jac j) := by
    unfold nod
    rw [Lagrange.eval_nodal_derivative_eval_node_eq (Finset.mem_univ k), Lagrange.eval_nodal]
  have ho := jacobi_ode hm hj k
  unfold radLap
  simp only [eval_add, eval_mul, eval_C, eval_X, hk]
  rw [← hd]
  linear_combination 2 * ho

/-- Some inner point of the bead sinks when the surface rises. -/
theorem surf_negative (hm : 2 ≤ m) (hj : Spec.ShJacobiRoots m 2.5 1.5 jac) :
    ∃ k : Fin m, symmB 3 (radialNodes jac) k.castSucc (Fin.last m) < 0 := by
  obtain ⟨k1, -, h1⟩ := Finset.exists_max_image Finset.univ jac ⟨⟨0, by omega⟩, Finset.mem_univ _⟩
  obtain ⟨k, hk, h2⟩ := Finset.exists_max_image (Finset.univ.erase k1) jac (by
    rw [← Finset.card_pos, Finset.card_erase_of_mem (Finset.mem_univ _), Finset.card_univ, Fintype.card_fin]; omega)
  refine ⟨k, ?_⟩
  have hne : k ≠ k1 := Finset.ne_of_mem_erase hk
  have he := surf_entry hm hj k
  have hP : 0 < ∏ i, (1 - jac i) := Finset.prod_pos fun i _ => by have := (hj.2.1 i).2; linarith
  have hprod : ∏ j ∈ Finset.univ.erase k, (jac k - jac j) < 0 := by
    rw [← Finset.mul_prod_erase (Finset.univ.erase k) _ (Finset.mem_erase.2 ⟨hne.symm, Finset.mem_univ k1⟩)]
    refine mul_neg_of_neg_of_pos ?_ (Finset.prod_pos fun j hj' => ?_)
    · have := lt_of_le_of_ne (h1 k (Finset.mem_univ k)) (fun h => hne (hj.1 h))
      linarith
    · have hj1 : j ≠ k1 := Finset.ne_of_mem_erase hj'
      have hjk : j ≠ k := Finset.ne_of_mem_erase (Finset.mem_of_mem_erase hj')
      have := lt_of_le_of_ne (h2 j (Finset.mem_erase.2 ⟨hj1, Finset.mem_univ j⟩)) (fun h => hjk (hj.1 h))
      linarith
  have h0 := (hj.2.1 k).1
  have h1' : 0 < 1 - jac k := by have := (hj.2.1 k).2; linarith
  have hneg : (1 - jac k) * (symmB 3 (radialNodes jac) k.castSucc (Fin.last m) * ∏ i, (1 - jac i)) < 0 := by
    rw [he]; exact mul_neg_of_pos_of_neg (by positivity) hprod
  by_contra hc
  push Not at hc
  have : 0 ≤ (1 - jac k) * (symmB 3 (radialNodes jac) k.castSucc (Fin.last m) * ∏ i, (1 - jac i)) := by positivity
  linarith

end

/-! ### Short times -/

/-- A function whose rate starts at zero and falls turns negative at once. -/
theorem neg_of_rate {v g : ℝ → ℝ} {T c : ℝ} (hT : 0 < T)
    (hv : ∀ t ∈ Icc 0 T, HasDerivWithinAt v (g t) (Icc 0 T) t) (hv0 : v 0 = 0)
    (hg : HasDerivWithinAt g c (Icc 0 T) 0) (hg0 : g 0 = 0) (hc : c < 0) :
    ∃ δ, 0 < δ ∧ δ ≤ T ∧ ∀ t ∈ Ioo 0 δ, v t < 0 := by
  have h1 := hasDerivWithinAt_iff_tendsto_slope.1 hg
  have h2 := h1.eventually (gt_mem_nhds hc)
  obtain ⟨ε, hε, hball⟩ := Metric.mem_nhdsWithin_iff.1 h2
  refine ⟨min ε T, lt_min hε hT, min_le_right _ _, fun t ht => ?_⟩
  have hneg : ∀ s ∈ Ioo 0 (min ε T), g s < 0 := by
    intro s hs
    have hs1 : s < ε := hs.2.trans_le (min_le_left _ _)
    have hs2 : s < T := hs.2.trans_le (min_le_right _ _)
    have := hball (show s ∈ Metric.ball 0 ε ∩ (Icc 0 T \ {0}) from
      ⟨by rw [Metric.mem_ball, Real.dist_eq, sub_zero, abs_of_pos hs.1]; exact hs1, ⟨hs.1.le, hs2.le⟩, hs.1.ne'⟩)
    simp only [Set.mem_ofPred_eq, slope_def_field, hg0, sub_zero] at this
    by_contra hge
    push Not at hge
    exact absurd this (not_lt.2 (div_nonneg hge hs.1.le))
  have hsub : Icc 0 t ⊆ Icc 0 T := Icc_subset_Icc_right (ht.2.le.trans (min_le_right _ _))
  have hanti : StrictAntiOn v (Icc 0 t) := by
    refine strictAntiOn_of_deriv_neg (convex_Icc 0 t) (fun s hs => ((hv s (hsub hs)).continuousWithinAt.mono hsub)) ?_
    intro s hs
    rw [interior_Icc] at hs
    have hd : HasDerivAt v (g s) s := (hv s (hsub ⟨hs.1.le, hs.2.le⟩)).hasDerivAt
      (Icc_mem_nhds hs.1 (hs.2.trans (ht.2.trans_le (min_le_right _ _))))
    rw [hd.deriv]
    exact hneg s ⟨hs.1, hs.2.trans ht.2⟩
  have := hanti (left_mem_Icc.2 ht.1.le) (right_mem_Icc.2 ht.1.le) ht.1
  rwa [hv0] at this

/-- The derivative of a product whose first factor starts at zero needs the second to be continuous only. -/
theorem deriv_mul_zero {f φ : ℝ → ℝ} {s : Set ℝ} {x a : ℝ} (hf : HasDerivWithinAt f a s x) (h0 : f x = 0)
    (hφ : ContinuousWithinAt φ s x) : HasDerivWithinAt (fun t => f t * φ t) (a * φ x) s x := by
  rw [hasDerivWithinAt_iff_tendsto_slope] at hf ⊢
  have h1 : Filter.Tendsto φ (nhdsWithin x (s \ {x})) (nhds (φ x)) := hφ.mono_left (nhdsWithin_mono _ sdiff_subset)
  refine (hf.mul h1).congr fun t => ?_
  rw [slope_def_field, slope_def_field, h0]
  ring

/-- One ion in one bead that starts without it: while the surface loads, the inner point `k` turns negative. -/
theorem clean_bead {r : ℕ} {B : Fin (r + 1) → Fin (r + 1) → ℝ} {k : Fin r} (hB : B k.castSucc (Fin.last r) < 0)
    {T D a : ℝ} (hT : 0 < T) (hD : 0 < D) (ha : 0 < a) {x φ : Fin (r + 1) → ℝ → ℝ} (hx0 : ∀ l, x l 0 = 0)
    (hφ : ∀ l, ContinuousWithinAt (φ l) (Icc 0 T) 0) (hφ0 : 0 < φ (Fin.last r) 0)
    (hin : ∀ l : Fin r, ∀ t ∈ Icc 0 T,
      HasDerivWithinAt (x l.castSucc) (D * ∑ j, B l.castSucc j * (x j t * φ j t)) (Icc 0 T) t)
    (hs : HasDerivWithinAt (x (Fin.last r)) a (Icc 0 T) 0) :
    ∃ δ, 0 < δ ∧ δ ≤ T ∧ ∀ t ∈ Ioo 0 δ, x k.castSucc t < 0 := by
  have h0T : (0:ℝ) ∈ Icc 0 T := ⟨le_rfl, hT.le⟩
  have hd : ∀ j, HasDerivWithinAt (fun t => x j t * φ j t) (if j = Fin.last r then a * φ j 0 else 0) (Icc 0 T) 0 := by
    intro j
    induction j using Fin.lastCases with
    | last => rw [if_pos rfl]; exact deriv_mul_zero hs (hx0 _) (hφ _)
    | cast j =>
      rw [if_neg (Fin.castSucc_lt_last j).ne]
      have h := hin j 0 h0T
      simp only [hx0, zero_mul, mul_zero, Finset.sum_const_zero] at h
      simpa using deriv_mul_zero h (hx0 _) (hφ _)
  have hg := (HasDerivWithinAt.fun_sum (u := Finset.univ)
    (fun j _ => (hd j).const_mul (B k.castSucc j))).const_mul D
  refine neg_of_rate hT (hin k) (hx0 _) hg (by simp [hx0]) ?_
  simp only [mul_ite, mul_zero, Finset.sum_ite_eq', Finset.mem_univ, if_true]
  have := mul_pos (mul_pos hD ha) hφ0
  nlinarith

/-! ### Equilibrium of an ion that is hardly there -/

section
variable {p : ℕ} {K : Fin (p + 1) → ℝ} {val : Fin (p + 1) → ℕ}

/-- Equilibrium concentration of ion `i` per loading. -/
noncomputable def ceqRatio (K : Fin (p + 1) → ℝ) (val : Fin (p + 1) → ℕ) (q : Fin (p + 1) → ℝ) (CT : ℝ) (i : Fin (p + 1)) : ℝ :=
  if ∃ i, val i = 2 then 1 / K i * (ceq K val q CT 0 / q 0) ^ val i else CT / ∑ j, alphaMat K i j * q j

theorem ceq_ratio {q : Fin (p + 1) → ℝ} {CT : ℝ} {i : Fin (p + 1)} (hi : i ≠ 0) :
    ceq K val q CT i = q i * ceqRatio K val q CT i := by
  unfold ceqRatio
  by_cases h : ∃ i, val i = 2
  · rw [if_pos h]
    unfold ceq
    rw [if_pos h]
    unfold ceqDv ceqOfRef
    rw [if_neg hi, if_pos rfl]
    ring
  · rw [if_neg h]
    unfold ceq
    rw [if_neg h]
    unfold ceqMv
    ring

theorem ceqRatio_nonneg {q : Fin (p + 1) → ℝ} {CT : ℝ} (h : DvOk K val q) (hCT : 0 ≤ CT) (i : Fin (p + 1)) :
    0 ≤ ceqRatio K val q CT i := by
  unfold ceqRatio
  split
  · rename_i hdv
    have h0 : ceq K val q CT 0 = refConc K val q CT := by
      unfold ceq; rw [if_pos hdv]; unfold ceqDv ceqOfRef; rw [if_pos rfl]
    rw [h0]
    exact mul_nonneg (one_div_pos.2 (h.Kpos i)).le (pow_nonneg (div_nonneg (refConc_spec h hCT).2.1 h.qref.le) _)
  · refine div_nonneg hCT (Finset.sum_nonneg fun j _ => ?_)
    exact mul_nonneg (div_pos (h.Kpos i) (h.Kpos j)).le (h.qnonneg j)

theorem ceqRatio_cont {Q : ℝ → Fin (p + 1) → ℝ} {C : ℝ → ℝ} {s : Set ℝ} {x : ℝ}
    (hQ : ∀ j, ContinuousWithinAt (fun t => Q t j) s x) (hC : ContinuousWithinAt C s x)
    (hr : Spec.EqRegular K val (Q x) (C x)) (i : Fin (p + 1)) :
    ContinuousWithinAt (fun t => ceqRatio K val (Q t) (C t) i) s x := by
  have hr' := hr
  unfold Spec.EqRegular at hr
  unfold ceqRatio
  by_cases h : ∃ i, val i = 2
  · simp only [if_pos h] at hr ⊢
    have h1 : ContDiffAt ℝ 1 (fun x : (Fin (p + 1) → ℝ) × ℝ => ceq K val x.1 x.2 0) (Q x, C x) := by
      refine ceq_smooth (Q := fun x : (Fin (p + 1) → ℝ) × ℝ => x.1) (C := fun x => x.2) (fun j => ?_) contDiffAt_snd hr' 0
      exact (contDiff_apply ℝ ℝ j).contDiffAt.comp _ contDiffAt_fst
    have h2 : ContinuousWithinAt (fun t => (Q t, C t)) s x := (continuousWithinAt_pi.2 hQ).prodMk hC
    have h3 := ContinuousAt.comp_continuousWithinAt (f := fun t => (Q t, C t)) h1.continuousAt h2
    exact continuousWithinAt_const.mul ((h3.div (hQ 0) hr.1).pow _)
  · simp only [if_neg h] at hr ⊢
    exact hC.div (tendsto_finsetSum _ fun j _ => continuousWithinAt_const.mul (hQ j)) (hr i)

end

/-! ### C210 -/

variable {r p z : ℕ} {jac : Fin r → ℝ}

/-- C210. A column that starts with beads at the inlet free of ion `i`, on a grid of three or more bead points, under an
influent that has ion `i`: right after the start some point inside the bead holds a negative amount of it, in every exact
solution. -/
theorem c210_column (m : ColModel) (P : ColParams r p z) (hr : 2 ≤ r) (g : Spec.BeadGrid jac P.Br P.Wr) {tH : ℝ}
    (htH : 0 < tH) (hrb : 0 < P.rb) (hE0 : 0 ≤ P.EPOR) (hE : P.EPOR < 1) {i : Fin (p + 1)} (hi : i ≠ 0)
    (hk : 0 < P.kL i) (hDs : 0 < P.Ds i) (hDp : P.Ds i ≤ P.Dp i) :
    ∃ k : Fin r, ∀ (cin : ℝ → Fin (p + 1) → ℝ) (T : ℝ) (y : ℝ → ColState r p z), 0 < T →
      ContinuousWithinAt cin (Icc 0 T) 0 → (∀ l : Fin (r + 1), DvOk P.K P.val (fun j => y 0 l.succ j 0)) →
      0 ≤ ∑ j, cin 0 j → 0 < cin 0 i → (∀ l : Fin (r + 1), y 0 l.succ i 0 = 0) →
      Spec.Solves colComp (fun t u => m.rhs P tH (cin t) u) 0 T y →
      ∃ δ, 0 < δ ∧ δ ≤ T ∧ ∀ t ∈ Ioo 0 δ, y t k.castSucc.succ i 0 < 0 := by
  obtain ⟨k, hkB⟩ := surf_negative hr g.zeros
  rw [← g.lap] at hkB
  refine ⟨k, fun cin T y hT hc hok hsum hcin hclean hy => ?_⟩
  have hE' : 0 < 1 - P.EPOR := by linarith
  have h0T : (0:ℝ) ∈ Icc 0 T := ⟨le_rfl, hT.le⟩
  have hrate : ∀ (l : Fin (r + 1)) j, ∀ t ∈ Icc 0 T, HasDerivWithinAt (fun t => y t l.succ j 0)
      (m.rhs P tH (cin t) (y t) l.succ j 0) (Icc 0 T) t := fun l j t ht => hy t ht (l.succ, j, 0)
  have hcont : ∀ (l : Fin (r + 1)) j, ContinuousWithinAt (fun t => y t l.succ j 0) (Icc 0 T) 0 :=
    fun l j => (hrate l j 0 h0T).continuousWithinAt
  have hCT : ContinuousWithinAt (fun t => ∑ j, cin t j) (Icc 0 T) 0 :=
    tendsto_finsetSum _ fun j _ => (continuous_apply j).continuousAt.comp_continuousWithinAt hc
  have hok' : ∀ l : Fin (r + 1), DvOk P.K P.val (fun j => y 0 l.succ j 0 / (1 - P.EPOR)) := fun l =>
    ⟨(hok l).Kpos, (hok l).Kref, fun j => div_nonneg ((hok l).qnonneg j) hE'.le, div_pos (hok l).qref hE', (hok l).valRef⟩
  let φ : Fin (r + 1) → ℝ → ℝ := fun l t => match m with
    | .hsdm => P.Ds i
    | .psdm => P.EPOR * (P.Dp i - P.Ds i) *
      (ceqRatio P.K P.val (fun j => y t l.succ j 0 / (1 - P.EPOR)) (∑ j, cin t j) i / (1 - P.EPOR)) + P.Ds i
  have hbead : ∀ (l : Fin (r + 1)) t, m.bead P tH (setInlet (y t) (cin t)) l i 0 =
      tH / P.rb ^ 2 * ∑ j : Fin (r + 1), P.Br l j * (y t j.succ i 0 * φ j t) := by
    intro l t
    cases m
    · simp only [ColModel.bead, hsdmBead, implicitRef, if_neg hi, setInlet_bead, φ]
      rw [Finset.mul_sum, Finset.mul_sum]
      exact Finset.sum_congr rfl fun j _ => by ring
    · simp only [ColModel.bead, psdmBead, implicitRef, if_neg hi, setInlet_bead, φ, poreConc, setInlet_total, if_true]
      simp only [ceq_ratio hi]
      rw [Finset.mul_sum, Finset.mul_sum, ← Finset.sum_add_distrib, Finset.mul_sum, Finset.sum_div, Finset.mul_sum]
      exact Finset.sum_congr rfl fun j _ => by ring
  have hφ0 : 0 < φ (Fin.last r) 0 := by
    cases m
    · exact hDs
    · simp only [φ]
      have := ceqRatio_nonneg (hok' (Fin.last r)) hsum i
      have h2 : 0 ≤ P.Dp i - P.Ds i := by linarith
      positivity
  have hφ : ∀ l, ContinuousWithinAt (φ l) (Icc 0 T) 0 := by
    intro l
    cases m
    · exact continuousWithinAt_const
    · simp only [φ]
      refine (continuousWithinAt_const.mul (ContinuousWithinAt.div_const ?_ _)).add continuousWithinAt_const
      exact ceqRatio_cont (fun j => (hcont l j).div_const _) hCT (eqRegular_of (hok' l) hsum) i
  have hsurf : m.rhs P tH (cin 0) (y 0) (Fin.last r).succ i 0 = tH / P.rb * (P.kL i * cin 0 i) / P.Wr (Fin.last r) := by
    rw [rhs_eq, assemble_bead, if_pos rfl]
    simp only [hbead, hclean, zero_mul, mul_zero, Finset.sum_const_zero, sub_zero]
    have hl : m.load P (y 0 (Fin.last r).succ i 0) = 0 := by
      rw [hclean]; cases m <;> simp [ColModel.load]
    have hz : ceq P.K P.val (fun j => m.load P (setInlet (y 0) (cin 0) (Fin.last (r + 1)) j 0))
        (∑ j, setInlet (y 0) (cin 0) 0 j 0) i = 0 := by
      rw [ceq_ratio hi]
      simp only [← Fin.succ_last, setInlet_bead, hl, zero_mul]
    unfold ColModel.flux fluxJ implicitRef
    rw [if_neg hi]
    beta_reduce
    rw [hz]
    have : setInlet (y 0) (cin 0) 0 i 0 = cin 0 i := by simp [setInlet]
    rw [this]
    ring
  have hpos : 0 < tH / P.rb * (P.kL i * cin 0 i) / P.Wr (Fin.last r) :=
    div_pos (mul_pos (div_pos htH hrb) (mul_pos hk hcin)) (g.wpos _)
  refine clean_bead (x := fun l t => y t l.succ i 0) (φ := φ) hkB hT (div_pos htH (pow_pos hrb 2)) hpos hclean hφ hφ0 ?_ ?_
  · intro l t ht
    have := hrate l.castSucc i t ht
    rw [rhs_eq, assemble_bead, if_neg (Fin.castSucc_lt_last l).ne, hbead] at this
    exact this
  · rw [← hsurf]
    exact hrate _ i 0 h0T

/-- C210. The column the code starts with: whatever ion other than the presaturant the first influent has. -/
theorem c210_start (m : ColModel) (P : ColParams r p z) (hr : 2 ≤ r) (g : Spec.BeadGrid jac P.Br P.Wr) {tH : ℝ}
    (htH : 0 < tH) (hrb : 0 < P.rb) (hE0 : 0 ≤ P.EPOR) (hE : P.EPOR < 1) (hK : ∀ i, 0 < P.K i) (hK0 : P.K 0 = 1)
    (hv : P.val 0 = 1) (hQ : 0 < P.Q) {cin : ℝ → Fin (p + 1) → ℝ} {T : ℝ} (hT : 0 < T)
    (hc : ContinuousWithinAt cin (Icc 0 T) 0) (hpos : 0 ≤ ∑ j, cin 0 j) {i : Fin (p + 1)} (hi : i ≠ 0) (hcin : 0 < cin 0 i)
    (hk : 0 < P.kL i) (hDs : 0 < P.Ds i) (hDp : P.Ds i ≤ P.Dp i) {y : ℝ → ColState r p z}
    (h0 : y 0 = colInit P.Q (cin 0) none) (hy : Spec.Solves colComp (fun t u => m.rhs P tH (cin t) u) 0 T y) :
    ∃ k : Fin r, ∃ δ, 0 < δ ∧ δ ≤ T ∧ ∀ t ∈ Ioo 0 δ, y t k.castSucc.succ i 0 < 0 := by
  obtain ⟨k, h⟩ := c210_column m P hr g htH hrb hE0 hE hi hk hDs hDp
  have e : ∀ (l : Fin (r + 1)) j, y 0 l.succ j 0 = if j = 0 then P.Q else 0 := by
    intro l j
    rw [h0]
    simp only [colInit, Fin.succ_ne_zero, if_false]
  refine ⟨k, h cin T y hT hc (fun l => ⟨hK, hK0, fun j => ?_, ?_, hv⟩) hpos hcin (fun l => ?_) hy⟩
  · rw [e]; split
    · exact hQ.le
    · exact le_rfl
  · rw [e, if_pos rfl]; exact hQ
  · rw [e, if_neg hi]

section
variable {K : Fin (p + 1) → ℝ} {val : Fin (p + 1) → ℕ}

/-- The same ratio in the batch models. -/
noncomputable def ceqRatioB (K : Fin (p + 1) → ℝ) (val : Fin (p + 1) → ℕ) (q : Fin (p + 1) → ℝ) (CT : ℝ)
    (i : Fin (p + 1)) : ℝ :=
  if ∃ i, val i = 2 then 1 / K i * (ceqB K val q CT 0 / q 0) ^ val i else CT / ∑ j, alphaMat K i j * q j

theorem ceqB_ratio {q : Fin (p + 1) → ℝ} {CT : ℝ} {i : Fin (p + 1)} (hi : i ≠ 0) :
    ceqB K val q CT i = q i * ceqRatioB K val q CT i := by
  unfold ceqRatioB
  by_cases h : ∃ i, val i = 2
  · rw [if_pos h]
    unfold ceqB
    rw [if_pos h]
    unfold ceqOfRef
    rw [if_neg hi, if_pos rfl]
    ring
  · rw [if_neg h]
    unfold ceqB
    rw [if_neg h]
    unfold ceqMv
    ring

theorem ceqRatioB_nonneg {q : Fin (p + 1) → ℝ} {CT : ℝ} (h : DvOk K val q) (hCT : 0 ≤ CT) (i : Fin (p + 1)) :
    0 ≤ ceqRatioB K val q CT i := by
  unfold ceqRatioB
  split
  · rename_i hdv
    refine mul_nonneg (one_div_pos.2 (h.Kpos i)).le (pow_nonneg (div_nonneg ?_ h.qref.le) _)
    unfold ceqB
    rw [if_pos hdv]
    unfold ceqOfRef
    rw [if_pos rfl]
    have ha := eqAA_nonneg h
    have hb := eqBB_ge h
    refine div_nonneg ?_ (by positivity)
    have : eqBB K val q ≤ Real.sqrt (eqBB K val q ^ 2 - 4 * eqAA K val q * -CT) := by
      apply Real.le_sqrt_of_sq_le
      nlinarith [mul_nonneg ha hCT]
    linarith
  · refine div_nonneg hCT (Finset.sum_nonneg fun j _ => ?_)
    exact mul_nonneg (div_pos (h.Kpos i) (h.Kpos j)).le (h.qnonneg j)

theorem ceqRatioB_cont {Q : ℝ → Fin (p + 1) → ℝ} {CT : ℝ} {s : Set ℝ} {x : ℝ}
    (hQ : ∀ j, ContinuousWithinAt (fun t => Q t j) s x) (hr : Spec.EqRegularB K val (Q x) CT) (i : Fin (p + 1)) :
    ContinuousWithinAt (fun t => ceqRatioB K val (Q t) CT i) s x := by
  have hr' := hr
  unfold Spec.EqRegularB at hr
  unfold ceqRatioB
  by_cases h : ∃ i, val i = 2
  · simp only [if_pos h] at hr ⊢
    have h1 : ContDiffAt ℝ 1 (fun x : Fin (p + 1) → ℝ => ceqB K val x CT 0) (Q x) :=
      ceqB_smooth (Q := fun x : Fin (p + 1) → ℝ => x) (fun j => (contDiff_apply ℝ ℝ j).contDiffAt) hr' 0
    have h3 := ContinuousAt.comp_continuousWithinAt (f := Q) h1.continuousAt (continuousWithinAt_pi.2 hQ)
    exact continuousWithinAt_const.mul ((h3.div (hQ 0) hr.1).pow _)
  · simp only [if_neg h] at hr ⊢
    exact continuousWithinAt_const.div (tendsto_finsetSum _ fun j _ => continuousWithinAt_const.mul (hQ j)) (hr i)

end

/-- C210. The same for batch runs: an ion that is in the water and not on the beads. -/
theorem c210_batch (m : BatchModel) (P : BatchParams r p) (hr : 2 ≤ r) (g : Spec.BeadGrid jac P.Br P.Wr)
    (hrb : 0 < P.rb) (hE0 : 0 ≤ P.EPOR) (hE : P.EPOR < 1) (hk : 0 < P.kL) (hDs : 0 < P.Ds) (hDp : P.Ds ≤ P.Dp)
    (hC : 0 ≤ ∑ j, P.C0 j) :
    ∃ k : Fin r, ∀ (T : ℝ) (y : ℝ → BatchState r p) (i : Fin (p + 1)), 0 < T → i ≠ 0 → m.Regular P (y 0) →
      (∀ l : Fin (r + 1), DvOk P.K P.val (y 0 l.succ)) → 0 < y 0 0 i → (∀ l : Fin (r + 1), y 0 l.succ i = 0) →
      m.Runs P 0 T y → ∃ δ, 0 < δ ∧ δ ≤ T ∧ ∀ t ∈ Ioo 0 δ, y t k.castSucc.succ i < 0 := by
  obtain ⟨k, hkB⟩ := surf_negative hr g.zeros
  rw [← g.lap] at hkB
  refine ⟨k, fun T y i hT hi hreg hok hwater hclean hy => ?_⟩
  have hE' : 0 < 1 - P.EPOR := by linarith
  have h0T : (0:ℝ) ∈ Icc 0 T := ⟨le_rfl, hT.le⟩
  have hrate : ∀ (l : Fin (r + 1)) j, ∀ t ∈ Icc 0 T, HasDerivWithinAt (fun t => y t l.succ j)
      (m.field P (y t) l.succ j) (Icc 0 T) t :=
    fun l j t ht => hasDerivWithinAt_pi.1 (hasDerivWithinAt_pi.1 (runs_field hy t ht) l.succ) j
  have hcont : ∀ (l : Fin (r + 1)) j, ContinuousWithinAt (fun t => y t l.succ j) (Icc 0 T) 0 :=
    fun l j => (hrate l j 0 h0T).continuousWithinAt
  have hok' : ∀ l : Fin (r + 1), DvOk P.K P.val (fun j => y 0 l.succ j / (1 - P.EPOR)) := fun l =>
    ⟨(hok l).Kpos, (hok l).Kref, fun j => div_nonneg ((hok l).qnonneg j) hE'.le, div_pos (hok l).qref hE', (hok l).valRef⟩
  have hpos : 0 < P.kL * y 0 0 i / P.rb / P.Wr (Fin.last r) :=
    div_pos (div_pos (mul_pos hk hwater) hrb) (g.wpos _)
  have hlt : ∀ l : Fin r, l.castSucc ≠ Fin.last r := fun l => (Fin.castSucc_lt_last l).ne
  cases m
  · refine clean_bead (x := fun l t => y t l.succ i) (φ := fun _ _ => P.Ds) hkB hT (div_pos one_pos (pow_pos hrb 2)) hpos
      hclean (fun _ => continuousWithinAt_const) hDs ?_ ?_
    · intro l t ht
      have := hrate l.castSucc i t ht
      simp only [BatchModel.field, batchAssemble_bead, if_neg (hlt l)] at this
      convert this using 1
      rw [Finset.mul_sum, Finset.mul_sum]
      exact Finset.sum_congr rfl fun j _ => by ring
    · have := hrate (Fin.last r) i 0 h0T
      simp only [BatchModel.field, batchAssemble_bead, if_true, hclean, mul_zero, Finset.sum_const_zero, sub_zero] at this
      rw [ceqB_ratio hi, ← Fin.succ_last, hclean, zero_mul] at this
      convert this using 1
      ring
  · refine clean_bead (x := fun l t => y t l.succ i) (φ := fun l t => P.EPOR * (P.Dp - P.Ds) *
        (ceqRatioB P.K P.val (fun j => y t l.succ j / (1 - P.EPOR)) (∑ j, P.C0 j) i / (1 - P.EPOR)) + P.Ds)
      hkB hT (div_pos one_pos (pow_pos hrb 2)) hpos hclean (fun l => ?_) ?_ ?_ ?_
    · refine (continuousWithinAt_const.mul (ContinuousWithinAt.div_const ?_ _)).add continuousWithinAt_const
      exact ceqRatioB_cont (fun j => (hcont l j).div_const _) (hreg l) i
    · have := ceqRatioB_nonneg (hok' (Fin.last r)) hC i
      have h2 : 0 ≤ P.Dp - P.Ds := by linarith
      positivity
    · intro l t ht
      have := hrate l.castSucc i t ht
      simp only [BatchModel.field, batchAssemble_bead, if_neg (hlt l), ceqB_ratio hi] at this
      convert this using 1
      rw [Finset.mul_sum, Finset.mul_sum, Finset.mul_sum, ← Finset.sum_add_distrib, Finset.sum_div]
      exact Finset.sum_congr rfl fun j _ => by ring
    · have := hrate (Fin.last r) i 0 h0T
      simp only [BatchModel.field, batchAssemble_bead, if_true, hclean, mul_zero, Finset.sum_const_zero, sub_zero,
        ceqB_ratio hi, zero_div, zero_mul, add_zero] at this
      convert this using 1
      ring

/-- C210. The contactor the code starts with: every ion in the water, neither divalent nor the presaturant. -/
theorem c210_batch_start (m : BatchModel) (P : BatchParams r p) (hr : 2 ≤ r) (g : Spec.BeadGrid jac P.Br P.Wr)
    (hrb : 0 < P.rb) (hE0 : 0 ≤ P.EPOR) (hE : P.EPOR < 1) (hk : 0 < P.kL) (hDs : 0 < P.Ds) (hDp : P.Ds ≤ P.Dp)
    (hK : ∀ i, 0 < P.K i) (hK0 : P.K 0 = 1) (hv : P.val 0 = 1) (hQ : 0 < P.RHOP * P.Qm) (hC : 0 ≤ ∑ j, P.C0 j)
    (hn : (Finset.univ.filter (fun j => P.val j = 2)).card < 1000) {i : Fin (p + 1)} (hi : i ≠ 0) (hvi : P.val i ≠ 2)
    (hCi : 0 < P.C0 i) {T : ℝ} (hT : 0 < T) {y : ℝ → BatchState r p} (h0 : y 0 = batchInit P) (hy : m.Runs P 0 T y) :
    ∃ k : Fin r, ∃ δ, 0 < δ ∧ δ ≤ T ∧ ∀ t ∈ Ioo 0 δ, y t k.castSucc.succ i < 0 := by
  obtain ⟨k, h⟩ := c210_batch m P hr g hrb hE0 hE hk hDs hDp hC
  refine ⟨k, h T y i hT hi ?_ (fun l => ?_) ?_ (fun l => ?_) hy⟩
  · rw [h0]; exact batch_start_regular m P hK hK0 hv hE hQ hC hn
  · rw [h0]; exact (batchInit_ok P hK hK0 hv hQ hn l).1
  · rw [h0]; exact hCi
  · rw [h0]
    simp only [batchInit, Fin.succ_ne_zero, if_false, if_neg hi, if_neg hvi, ite_self]

/-- There is such a column, with three bead points and a divalent ion, and such a run. -/
example (m : ColModel) : ∃ (jac : Fin 2 → ℝ) (P : ColParams 2 1 1) (T : ℝ) (y : ℝ → ColState 2 1 1) (k : Fin 2) (δ : ℝ),
    Spec.BeadGrid jac P.Br P.Wr ∧ y 0 = colInit P.Q ![1, 1] none ∧
    Spec.Solves colComp (fun _ u => m.rhs P 7 ![1, 1] u) 0 T y ∧ 0 < δ ∧ δ ≤ T ∧
    ∀ t ∈ Ioo 0 δ, y t k.castSucc.succ 1 0 < 0 := by
  obtain ⟨jac, B, W, g⟩ := beadGrid_exists 2
  let P : ColParams 2 1 1 :=
    ⟨1 / 2, 1, 1, 1, 2, 1 / 4, ![1, 1], ![1, 1], ![2, 2], ![1, 3], ![1, 2], ![![-1, 1], ![-1, 1]], B, W⟩
  have hK : ∀ i, 0 < P.K i := by intro i; fin_cases i <;> simp [P]
  have hs : (0:ℝ) ≤ ∑ j, (![1, 1] : Fin 2 → ℝ) j := by rw [Fin.sum_univ_two]; norm_num
  obtain ⟨T, hT, -, y, hy0, hy⟩ := c209_start m P hK rfl rfl (by norm_num [P]) (by norm_num [P]) 7
    (cin := fun _ => ![1, 1]) (t1 := 5) (by norm_num) continuousOn_const hs
  obtain ⟨k, δ, h1, h2, h3⟩ := c210_start m P (le_refl 2) g (tH := 7) (by norm_num) (by norm_num [P]) (by norm_num [P])
    (by norm_num [P]) hK rfl rfl (by norm_num [P]) hT (cin := fun _ => ![1, 1]) continuousWithinAt_const hs (i := 1)
    (by decide) (by norm_num) (by norm_num [P]) (by norm_num [P]) (by norm_num [P]) hy0 hy
  exact ⟨jac, P, T, y, k, δ, g, hy0, hy, h1, h2, h3⟩

/-- And such a batch run. -/
example (m : BatchModel) : ∃ (jac : Fin 2 → ℝ) (P : BatchParams 2 2) (T : ℝ) (y : ℝ → BatchState 2 2) (k : Fin 2) (δ : ℝ),
    Spec.BeadGrid jac P.Br P.Wr ∧ y 0 = batchInit P ∧ m.Runs P 0 T y ∧ 0 < δ ∧ δ ≤ T ∧
    ∀ t ∈ Ioo 0 δ, y t k.castSucc.succ 1 < 0 := by
  obtain ⟨jac, B, W, g⟩ := beadGrid_exists 2
  let P : BatchParams 2 2 := ⟨1, 5, 1 / 2, 1, 1, 1, 2, 1, 1 / 10, ![2, 1, 1], ![1, 3, 4], ![1, 1, 2], B, W⟩
  have hK : ∀ i, 0 < P.K i := by intro i; fin_cases i <;> simp [P]
  have hC : 0 ≤ ∑ j, P.C0 j := Finset.sum_nonneg fun i _ => by fin_cases i <;> simp [P]
  have hn : (Finset.univ.filter (fun j => P.val j = 2)).card < 1000 :=
    lt_of_le_of_lt (Finset.card_le_univ _) (by simp)
  obtain ⟨T, hT, -, y, hy0, hy⟩ := c209_batch_start m P hK rfl rfl (by norm_num [P]) (by norm_num [P]) hC hn
    (t1 := 5) (by norm_num)
  obtain ⟨k, δ, h1, h2, h3⟩ := c210_batch_start m P (le_refl 2) g (by norm_num [P]) (by norm_num [P]) (by norm_num [P])
    (by norm_num [P]) (by norm_num [P]) (by norm_num [P]) hK rfl rfl (by norm_num [P]) hC hn (i := 1) (by decide)
    (by simp [P]) (by norm_num [P]) hT hy0 hy
  exact ⟨jac, P, T, y, k, δ, g, hy0, hy, h1, h2, h3⟩

end WTM
