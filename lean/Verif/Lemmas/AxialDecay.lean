import Verif.Lemmas.ElementForm
import Verif.Lemmas.Settle

/-! Water that only flows leaves the column: the axial operators with fixed inlet, alone, settle exponentially. -/
set_option autoImplicit false
namespace WTM
open BigOperators Set Filter Topology Polynomial

/-- Rates of profiles below the inlet. -/
noncomputable def advCL {z : ℕ} (κ : ℝ) (A : Fin (z + 1) → Fin (z + 1) → ℝ) : (Fin z → ℝ) →L[ℝ] (Fin z → ℝ) :=
  LinearMap.toContinuousLinearMap (-κ • Matrix.mulVecLin (Matrix.of fun w w' : Fin z => A w.succ w'.succ))

theorem advCL_apply {z : ℕ} (κ : ℝ) (A : Fin (z + 1) → Fin (z + 1) → ℝ) (c : Fin z → ℝ) (w : Fin z) :
    advCL κ A c w = -(κ * ∑ w' : Fin z, A w.succ w'.succ * c w') := by
  simp [advCL, Matrix.mulVec, dotProduct]

theorem advect_settle {z : ℕ} {A : Fin (z + 1) → Fin (z + 1) → ℝ} {G : Fin z → Fin z → ℝ} (hG : AxialForm A G) {κ : ℝ} (hκ : 0 < κ)
    (hker : ∀ x : ℝ → Fin z → ℝ, (∀ t w, HasDerivAt (fun t => x t w) (-(κ * ∑ w' : Fin z, A w.succ w'.succ * x t w')) t) →
      (∀ t, 0 < t → gdot G (x t) (fun w => ∑ w' : Fin z, A w.succ w'.succ * x t w') = 0) →
      (∀ t, 0 < t → gdot G (x t) (x t) ≤ gdot G (x 0) (x 0)) → ∃ t, 0 < t ∧ x t = 0) :
    ∃ C ω : ℝ, 0 < C ∧ 0 < ω ∧ ∀ (x : ℝ → Fin z → ℝ) (T : ℝ),
      (∀ t ∈ Icc 0 T, ∀ w, HasDerivWithinAt (fun t => x t w) (-(κ * ∑ w' : Fin z, A w.succ w'.succ * x t w')) (Icc 0 T) t) →
      ∀ t ∈ Icc 0 T, ‖x t‖ ≤ C * Real.exp (-(ω * t)) * ‖x 0‖ := by
  have hd : ∀ (x : ℝ → Fin z → ℝ) t, HasDerivAt x (advCL κ A (x t)) t → HasDerivAt (fun t => gdot G (x t) (x t))
      (-(2 * (κ * gdot G (x t) (fun w => ∑ w' : Fin z, A w.succ w'.succ * x t w')))) t := by
    intro x t hx
    have h1 : HasDerivAt (fun t => gdot G (x t) (x t)) (∑ v, ∑ w, G v w * (advCL κ A (x t) v * x t w + x t v * advCL κ A (x t) w)) t := by
      unfold gdot
      exact HasDerivAt.fun_sum fun v _ => HasDerivAt.fun_sum fun w _ =>
        ((hasDerivAt_pi.1 hx v).mul (hasDerivAt_pi.1 hx w)).const_mul _
    refine h1.congr_deriv ?_
    simp only [mul_add, Finset.sum_add_distrib]
    have e1 : ∑ v, ∑ w, G v w * (x t v * advCL κ A (x t) w) = -(κ * gdot G (x t) (fun w => ∑ w' : Fin z, A w.succ w'.succ * x t w')) := by
      unfold gdot
      rw [Finset.mul_sum, ← Finset.sum_neg_distrib]
      refine Finset.sum_congr rfl fun v _ => ?_
      rw [Finset.mul_sum, ← Finset.sum_neg_distrib]
      refine Finset.sum_congr rfl fun w _ => ?_
      rw [advCL_apply]
      ring
    have e2 : ∑ v, ∑ w, G v w * (advCL κ A (x t) v * x t w) = ∑ v, ∑ w, G v w * (x t v * advCL κ A (x t) w) := by
      rw [Finset.sum_comm]
      refine Finset.sum_congr rfl fun v _ => Finset.sum_congr rfl fun w _ => ?_
      rw [hG.symm]
      ring
    rw [e2, e1]
    ring
  have hD : ∀ u : Fin z → ℝ, 0 ≤ 2 * (κ * gdot G u (fun w => ∑ w' : Fin z, A w.succ w'.succ * u w')) := by
    intro u
    have := mul_nonneg hκ.le (hG.falls u)
    linarith
  obtain ⟨C, ω, hC, hω, hs⟩ := settle_norm (advCL κ A) (fun u => gdot G u u)
    (fun u => 2 * (κ * gdot G u (fun w => ∑ w' : Fin z, A w.succ w'.succ * u w'))) (by unfold gdot; fun_prop) hG.pos hG.definite (by
      intro c u
      unfold gdot
      rw [Finset.mul_sum]
      refine Finset.sum_congr rfl fun v _ => ?_
      rw [Finset.mul_sum]
      refine Finset.sum_congr rfl fun w _ => ?_
      rw [Pi.smul_apply, Pi.smul_apply, smul_eq_mul, smul_eq_mul]
      ring) hd hD (by
      intro x hx h0
      refine hker x (fun t w => ?_) (fun t ht => ?_) (fun t ht => ?_)
      · have := hasDerivAt_pi.1 (hx t) w
        rwa [advCL_apply] at this
      · have h1 := h0 t ht
        rw [mul_eq_zero, mul_eq_zero] at h1
        rcases h1 with h1 | h1 | h1
        · norm_num at h1
        · exact absurd h1 hκ.ne'
        · exact h1
      · have h1 : Antitone fun t => gdot G (x t) (x t) :=
          antitone_of_hasDerivAt_nonpos (fun t => hd x t (hx t)) fun t => neg_nonpos.2 (hD _)
        exact h1 ht.le)
  refine ⟨C, ω, hC, hω, fun x T hx t ht => hs x T (fun t ht => ?_) t ht⟩
  refine hasDerivWithinAt_pi.2 fun w => ?_
  rw [advCL_apply]
  exact hx t ht w

theorem legendre_settle {m : ℕ} {leg : Fin m → ℝ} (h : Spec.ShJacobiRoots m 1 1 leg) {κ : ℝ} (hκ : 0 < κ) :
    ∃ C ω : ℝ, 0 < C ∧ 0 < ω ∧ ∀ (x : ℝ → Fin (m + 1) → ℝ) (T : ℝ),
      (∀ t ∈ Icc 0 T, ∀ w, HasDerivWithinAt (fun t => x t w) (-(κ * ∑ w' : Fin (m + 1), aMat (axialNodes leg) w.succ w'.succ * x t w')) (Icc 0 T) t) →
      ∀ t ∈ Icc 0 T, ‖x t‖ ≤ C * Real.exp (-(ω * t)) * ‖x 0‖ := by
  obtain ⟨G, hG, hl⟩ := axialForm_legendre h
  refine advect_settle hG hκ fun c hc h0 _ => ⟨1, one_pos, ?_⟩
  have hX := axialNodes_inj h.1 h.2.1
  set x : Fin (m + 1) → ℝ := fun w => axialNodes leg w.succ with hx
  have hxi : Function.Injective x := fun v w e => Fin.succ_injective _ (hX e)
  have hz : ∀ t, 0 < t → (interpPoly x (c t)).eval 0 = 0 := by
    intro t ht
    have h1 := h0 t ht
    rw [hl] at h1
    have h2 := sq_nonneg ((interpPoly x (c t)).eval 1)
    have h3 := sq_nonneg ((interpPoly x (c t)).eval 0)
    exact pow_eq_zero_iff two_ne_zero |>.1 (by linarith)
  have hrate : ∀ t, 0 < t → ∀ j, HasDerivAt (fun t => (interpPoly x (c t)).coeff j) (-(κ * ((interpPoly x (c t)).coeff (j + 1) * (j + 1)))) t := by
    intro t ht j
    set R := interpPoly x (c t) with hR
    have hRd : R.natDegree ≤ m := interpPoly_natDegree hxi _
    have hA : (fun w : Fin (m + 1) => ∑ w' : Fin (m + 1), aMat (axialNodes leg) w.succ w'.succ * c t w') =
        fun w => (derivative R).eval (x w) := by
      funext w
      have hRd' : R.degree < (m + 2 : ℕ) := lt_of_le_of_lt degree_le_natDegree (by exact_mod_cast (by omega : R.natDegree < m + 2))
      rw [hx, ← aMat_apply hX hRd' w.succ,
        Fin.sum_univ_succ (f := fun j => aMat (axialNodes leg) w.succ j * R.eval (axialNodes leg j))]
      have e0 : R.eval (axialNodes leg 0) = 0 := hz t ht
      rw [e0, mul_zero, zero_add]
      refine Finset.sum_congr rfl fun w' _ => ?_
      have e1 : R.eval (axialNodes leg w'.succ) = c t w' := interpPoly_eval hxi (c t) w'
      rw [e1]
    have hdd : (derivative R).degree < (m + 1 : ℕ) := by
      have := natDegree_derivative_le R
      exact lt_of_le_of_lt degree_le_natDegree (by exact_mod_cast (by omega : (derivative R).natDegree < m + 1))
    have e := interp_of_degree hxi hdd
    have hd : HasDerivAt (fun t => (interpPoly x (c t)).coeff j)
        (∑ w, -(κ * (derivative R).eval (x w)) * (lag x w).coeff j) t := by
      have : (fun t => (interpPoly x (c t)).coeff j) = fun t => ∑ w, c t w * (lag x w).coeff j := by
        funext t
        unfold interpPoly
        rw [finsetSum_coeff]
        exact Finset.sum_congr rfl fun w _ => coeff_C_mul _
      rw [this]
      refine HasDerivAt.fun_sum fun w _ => ?_
      have := hc t w
      rw [congrFun hA w] at this
      exact this.mul_const _
    refine hd.congr_deriv ?_
    have e2 : (derivative R).coeff j = ∑ w, (derivative R).eval (x w) * (lag x w).coeff j := by
      conv_lhs => rw [← e]
      unfold interpPoly
      rw [finsetSum_coeff]
      exact Finset.sum_congr rfl fun w _ => coeff_C_mul _
    rw [coeff_derivative] at e2
    rw [e2, Finset.mul_sum, ← Finset.sum_neg_distrib]
    exact Finset.sum_congr rfl fun w _ => by ring
  have hall : ∀ j t, 0 < t → (interpPoly x (c t)).coeff j = 0 := by
    intro j
    induction j with
    | zero =>
      intro t ht
      rw [coeff_zero_eq_eval_zero]
      exact hz t ht
    | succ j ih =>
      intro t ht
      have h1 : HasDerivAt (fun t => (interpPoly x (c t)).coeff j) 0 t := by
        refine (hasDerivAt_const t (0 : ℝ)).congr_of_eventuallyEq ?_
        filter_upwards [Ioi_mem_nhds ht] with s hs
        exact ih s hs
      have h2 := (hrate t ht j).unique h1
      have h3 : (j : ℝ) + 1 ≠ 0 := by positivity
      rw [neg_eq_zero, mul_eq_zero, mul_eq_zero] at h2
      rcases h2 with h2 | h2 | h2
      · exact absurd h2 hκ.ne'
      · exact h2
      · exact absurd h2 h3
  have hR : interpPoly x (c 1) = 0 := by
    ext j
    rw [hall j 1 one_pos, coeff_zero]
  funext w
  rw [← interpPoly_eval hxi (c 1) w, hR, eval_zero]
  rfl

/-- What grows in proportion to itself and stays bounded is nothing. -/
theorem bounded_growth {y : ℝ → ℝ} {lam B : ℝ} (hl : 0 < lam) (hy : ∀ t, 0 < t → HasDerivAt y (lam * y t) t) (hb : ∀ t, 0 < t → y t ^ 2 ≤ B) :
    ∀ t, 0 < t → y t = 0 := by
  intro s hs
  have hconst : ∀ t, s ≤ t → y t * Real.exp (-(lam * t)) = y s * Real.exp (-(lam * s)) := by
    intro t ht
    have hd : ∀ τ ∈ Icc s t, HasDerivWithinAt (fun τ => y τ * Real.exp (-(lam * τ))) 0 (Icc s t) τ := by
      intro τ hτ
      have h1 := (hy τ (hs.trans_le hτ.1)).mul (((hasDerivAt_id τ).const_mul lam).neg.exp)
      refine (h1.congr_deriv ?_).hasDerivWithinAt
      simp only [id]
      ring
    refine constant_of_derivWithin_zero (fun τ hτ => (hd τ hτ).differentiableWithinAt) (fun τ hτ => ?_) t ⟨ht, le_rfl⟩
    have hlt : s < t := lt_of_le_of_lt hτ.1 hτ.2
    exact (hd τ ⟨hτ.1, hτ.2.le⟩).derivWithin (uniqueDiffOn_Icc hlt τ ⟨hτ.1, hτ.2.le⟩)
  have hle : ∀ᶠ t in atTop, |y s * Real.exp (-(lam * s))| ≤ Real.sqrt B * Real.exp (-(lam * t)) := by
    filter_upwards [eventually_ge_atTop s] with t ht
    rw [← hconst t ht, abs_mul, abs_of_pos (Real.exp_pos _)]
    exact mul_le_mul_of_nonneg_right (Real.abs_le_sqrt (hb t (hs.trans_le ht))) (Real.exp_pos _).le
  have hlim : Tendsto (fun t => Real.sqrt B * Real.exp (-(lam * t))) atTop (𝓝 (Real.sqrt B * 0)) := by
    refine Tendsto.const_mul _ ?_
    exact Real.tendsto_exp_neg_atTop_nhds_zero.comp (tendsto_id.const_mul_atTop hl)
  rw [mul_zero] at hlim
  have h0 := ge_of_tendsto hlim hle
  have h1 := abs_nonpos_iff.1 h0
  exact (mul_eq_zero.1 h1).resolve_right (Real.exp_pos _).ne'

theorem elements_settle {leg : Fin 1 → ℝ} (h : Spec.ShJacobiRoots 1 1 1 leg) (K : ℕ) {κ : ℝ} (hκ : 0 < κ) :
    ∃ C ω : ℝ, 0 < C ∧ 0 < ω ∧ ∀ (x : ℝ → Fin ((K + 1) * 2) → ℝ) (T : ℝ),
      (∀ t ∈ Icc 0 T, ∀ w, HasDerivWithinAt (fun t => x t w) (-(κ * ∑ w' : Fin ((K + 1) * 2),
        advOp (K + 1) 3 (arr2 (aMat (axialNodes leg))) (w.succ : Fin _) (w'.succ : Fin _) * x t w')) (Icc 0 T) t) →
      ∀ t ∈ Icc 0 T, ‖x t‖ ≤ C * Real.exp (-(ω * t)) * ‖x 0‖ := by
  obtain ⟨G, hG, hl, hb⟩ := axialForm_elements h K
  refine advect_settle (A := fun w w' => advOp (K + 1) 3 (arr2 (aMat (axialNodes leg))) w w') hG hκ fun c hc h0 hle => ⟨1, one_pos, ?_⟩
  simp only [hl] at h0
  rw [half_nodes h] at hc
  set v : ℝ → ℕ → ℝ := fun t n => if hn : 0 < n ∧ n < (K + 1) * 2 + 1 then c t ⟨n - 1, by omega⟩ else 0 with hv
  have hvs : ∀ t (w : Fin ((K + 1) * 2)), v t ((w : ℕ) + 1) = c t w := by
    intro t w
    have hw := w.2
    simp only [hv]
    rw [dif_pos ⟨by omega, by omega⟩]
    congr 1
  have hv0 : ∀ t, v t 0 = 0 := by intro t; simp [hv]
  have hrow : ∀ t (n : ℕ), n < (K + 1) * 2 → HasDerivAt (fun t => v t (n + 1))
      (-(κ * ∑ j ∈ Finset.range ((K + 1) * 2 + 1), advOp (K + 1) 3 (arr2 (aMat ![(0:ℝ), 1 / 2, 1])) (n + 1) j * v t j)) t := by
    intro t n hn
    have h1 := hc t ⟨n, hn⟩
    have e1 : (fun t => c t ⟨n, hn⟩) = fun t => v t (n + 1) := by
      funext t
      exact (hvs t ⟨n, hn⟩).symm
    rw [e1] at h1
    refine h1.congr_deriv ?_
    rw [Finset.sum_range_succ', hv0, mul_zero, add_zero, Finset.sum_range]
    congr 2
    refine Finset.sum_congr rfl fun w' _ => ?_
    rw [hvs, Fin.val_succ, Fin.val_succ]
  have hall : ∀ d, d ≤ K + 1 → ∀ t, 0 < t → ∀ n, 2 * (K + 1 - d) ≤ n → 0 < n → v t n = 0 := by
    intro d
    induction d with
    | zero =>
      intro _ t ht n hn _
      rcases Nat.lt_or_ge n ((K + 1) * 2 + 1) with h1 | h1
      · have hn2 : n = 2 * K + 1 + 1 := by omega
        have h2 := h0 t ht
        have h3 := hvs t ⟨2 * K + 1, by omega⟩
        rw [hn2]
        refine h3.trans (pow_eq_zero_iff two_ne_zero |>.1 ((mul_eq_zero.1 h2).resolve_left ?_))
        positivity
      · simp only [hv]
        rw [dif_neg (by omega)]
    | succ d ih =>
      intro hd
      have ih := ih (by omega)
      obtain ⟨k, hk⟩ : ∃ k, K = k + d := ⟨K - d, by omega⟩
      have e1 : 2 * (K + 1 - d) = 2 * k + 2 := by omega
      have e2 : 2 * (K + 1 - (d + 1)) = 2 * k := by omega
      rw [e1] at ih
      rw [e2]
      have hquart : ∀ t, 0 < t → v t (2 * k) = 4 * v t (2 * k + 1) := by
        intro t ht
        have h1 := hrow t (2 * k + 1) (by omega)
        have h2 : HasDerivAt (fun t => v t (2 * k + 1 + 1)) 0 t := by
          refine (hasDerivAt_const t (0 : ℝ)).congr_of_eventuallyEq ?_
          filter_upwards [Ioi_mem_nhds ht] with s hs
          exact ih s hs _ (by omega) (by omega)
        have h3 := h1.unique h2
        rw [neg_eq_zero, mul_eq_zero] at h3
        have h3 := h3.resolve_left hκ.ne'
        rw [show 2 * k + 1 + 1 = 2 * k + 2 by ring] at h3
        have hK : (K : ℝ) + 1 ≠ 0 := by positivity
        rcases Nat.eq_zero_or_pos d with hd0 | hd0
        · obtain rfl : K = k := by omega
          rw [elem_out, mul_eq_zero] at h3
          have h4 := h3.resolve_left hK
          rw [ih t ht _ le_rfl (by omega)] at h4
          linarith
        · rw [elem_joint _ (by omega), mul_eq_zero] at h3
          have h4 := h3.resolve_left (by push_cast; exact hK)
          rw [ih t ht (2 * k + 3) (by omega) (by omega), ih t ht (2 * k + 4) (by omega) (by omega)] at h4
          linarith
      have hmid : ∀ t, 0 < t → v t (2 * k + 1) = 0 := by
        refine bounded_growth (lam := 4 * κ * (K + 1)) (B := 4 * gdot G (c 0) (c 0)) (by positivity) (fun t ht => ?_) (fun t ht => ?_)
        · have h1 := hrow t (2 * k) (by omega)
          rw [elem_mid _ (by omega)] at h1
          refine h1.congr_deriv ?_
          rw [ih t ht _ le_rfl (by omega), hquart t ht]
          push_cast
          ring
        · have h1 := hvs t ⟨2 * k, by omega⟩
          rw [show v t (2 * k + 1) = _ from h1]
          exact (hb (c t) _).trans (by linarith [hle t ht])
      intro t ht n hn hn0
      rcases Nat.lt_or_ge n (2 * k + 2) with h1 | h1
      · rcases Nat.lt_or_ge n (2 * k + 1) with h2 | h2
        · obtain rfl : n = 2 * k := by omega
          rw [hquart t ht, hmid t ht, mul_zero]
        · obtain rfl : n = 2 * k + 1 := by omega
          exact hmid t ht
      · exact ih t ht n h1 hn0
  funext w
  rw [← hvs]
  exact hall (K + 1) le_rfl 1 one_pos _ (by omega) (by omega)

end WTM
