import Mathlib.Analysis.ODE.Gronwall
import Verif.Lemmas.Settle

/-! Where the linear part settles exponentially, so does the system itself near its rest. -/
set_option autoImplicit false
namespace WTM
open Set Topology Filter

section
variable {E : Type} [NormedAddCommGroup E] [NormedSpace ℝ E] [FiniteDimensional ℝ E]

/-- The size of a state in which the flow of `M` shrinks at once. -/
noncomputable def flowSize (M : E →L[ℝ] E) (ω : ℝ) (v : E) : ℝ := ⨆ s : {s : ℝ // 0 ≤ s}, Real.exp (ω * s) * ‖linFlow M v s‖

variable {M : E →L[ℝ] E} {C ω : ℝ}

omit [FiniteDimensional ℝ E] in
theorem flowSize_bdd (hM : ∀ v t, 0 ≤ t → ‖linFlow M v t‖ ≤ C * Real.exp (-(ω * t)) * ‖v‖) (v : E) (s : {s : ℝ // 0 ≤ s}) :
    Real.exp (ω * s) * ‖linFlow M v s‖ ≤ C * ‖v‖ := by
  have h := mul_le_mul_of_nonneg_left (hM v s s.2) (Real.exp_pos (ω * s)).le
  refine h.trans (le_of_eq ?_)
  have : Real.exp (ω * s) * Real.exp (-(ω * s)) = 1 := by rw [← Real.exp_add, add_neg_cancel, Real.exp_zero]
  linear_combination C * ‖v‖ * this

omit [FiniteDimensional ℝ E] in
theorem flowSize_le (hM : ∀ v t, 0 ≤ t → ‖linFlow M v t‖ ≤ C * Real.exp (-(ω * t)) * ‖v‖) (v : E) : flowSize M ω v ≤ C * ‖v‖ := by
  have : Nonempty {s : ℝ // 0 ≤ s} := ⟨⟨0, le_rfl⟩⟩
  exact ciSup_le fun s => flowSize_bdd hM v s

omit [FiniteDimensional ℝ E] in
theorem le_flowSize (hM : ∀ v t, 0 ≤ t → ‖linFlow M v t‖ ≤ C * Real.exp (-(ω * t)) * ‖v‖) (v : E) {s : ℝ} (hs : 0 ≤ s) :
    Real.exp (ω * s) * ‖linFlow M v s‖ ≤ flowSize M ω v :=
  le_ciSup (f := fun s : {s : ℝ // 0 ≤ s} => Real.exp (ω * s) * ‖linFlow M v s‖) ⟨C * ‖v‖, by rintro _ ⟨s, rfl⟩; exact flowSize_bdd hM v s⟩ ⟨s, hs⟩

omit [FiniteDimensional ℝ E] in
theorem norm_le_flowSize (hM : ∀ v t, 0 ≤ t → ‖linFlow M v t‖ ≤ C * Real.exp (-(ω * t)) * ‖v‖) (v : E) : ‖v‖ ≤ flowSize M ω v := by
  have := le_flowSize hM v le_rfl
  rwa [mul_zero, Real.exp_zero, one_mul, linFlow_zero] at this

omit [FiniteDimensional ℝ E] in
theorem flowSize_add (hM : ∀ v t, 0 ≤ t → ‖linFlow M v t‖ ≤ C * Real.exp (-(ω * t)) * ‖v‖) (u v : E) :
    flowSize M ω (u + v) ≤ flowSize M ω u + flowSize M ω v := by
  have : Nonempty {s : ℝ // 0 ≤ s} := ⟨⟨0, le_rfl⟩⟩
  refine ciSup_le fun s => ?_
  have e : linFlow M (u + v) s = linFlow M u s + linFlow M v s := by unfold linFlow; exact map_add _ _ _
  rw [e]
  calc _ ≤ Real.exp (ω * s) * (‖linFlow M u s‖ + ‖linFlow M v s‖) := mul_le_mul_of_nonneg_left (norm_add_le _ _) (Real.exp_pos _).le
    _ = Real.exp (ω * s) * ‖linFlow M u s‖ + Real.exp (ω * s) * ‖linFlow M v s‖ := by ring
    _ ≤ _ := add_le_add (le_flowSize hM u s.2) (le_flowSize hM v s.2)

theorem flowSize_flow (hM : ∀ v t, 0 ≤ t → ‖linFlow M v t‖ ≤ C * Real.exp (-(ω * t)) * ‖v‖) (v : E) {h : ℝ} (hh : 0 ≤ h) :
    flowSize M ω (linFlow M v h) ≤ Real.exp (-(ω * h)) * flowSize M ω v := by
  have : Nonempty {s : ℝ // 0 ≤ s} := ⟨⟨0, le_rfl⟩⟩
  refine ciSup_le fun s => ?_
  rw [← linFlow_add M v s.2]
  have h1 := mul_le_mul_of_nonneg_left (le_flowSize hM v (add_nonneg hh s.2)) (Real.exp_pos (-(ω * h))).le
  refine le_trans (le_of_eq ?_) h1
  rw [← mul_assoc, ← Real.exp_add]
  congr 2
  ring

/-- A system `x' = M x + N x` whose remainder `N` is small against the state near rest. -/
theorem local_settle (hω : 0 < ω) (hC : 0 < C) (hM : ∀ v t, 0 ≤ t → ‖linFlow M v t‖ ≤ C * Real.exp (-(ω * t)) * ‖v‖) {N : E → E}
    (hN : ∀ η > 0, ∃ δ > 0, ∀ u, ‖u‖ ≤ δ → ‖N u‖ ≤ η * ‖u‖) :
    ∃ δ : ℝ, 0 < δ ∧ ∀ (x : ℝ → E) (T : ℝ), (∀ t ∈ Icc 0 T, HasDerivWithinAt x (M (x t) + N (x t)) (Icc 0 T) t) → ‖x 0‖ ≤ δ →
      ∀ t ∈ Icc 0 T, ‖x t‖ ≤ 2 * C * Real.exp (-(ω / 4 * t)) * ‖x 0‖ := by
  obtain ⟨δ, hδ, hN⟩ := hN (ω / (2 * C)) (by positivity)
  refine ⟨δ / (4 * C), by positivity, fun x T hx h0 t ht => ?_⟩
  -- strict bound for every factor above
  have key : ∀ ρ > 0, C * ‖x 0‖ ≤ ρ → ρ ≤ δ → flowSize M ω (x t) ≤ ρ * Real.exp (-(ω / 4 * t)) := by
    intro ρ hρ hxρ hρδ
    have hcx : ContinuousOn x (Icc 0 T) := fun s hs => (hx s hs).continuousWithinAt
    have hcs : Continuous (flowSize M ω) := by
      have hl : LipschitzWith (Real.toNNReal C) (flowSize M ω) := by
        refine LipschitzWith.of_le_add_mul _ fun u v => ?_
        have h1 := flowSize_add hM v (u - v)
        rw [add_sub_cancel] at h1
        have h2 := flowSize_le hM (u - v)
        rw [dist_eq_norm, Real.coe_toNNReal _ hC.le]
        linarith
      exact hl.continuous
    refine image_le_of_liminf_slope_right_lt_deriv_boundary' (f := fun s => flowSize M ω (x s))
      (f' := fun s => -ω * flowSize M ω (x s) + C * ‖N (x s)‖) (B := fun s => ρ * Real.exp (-(ω / 4 * s)))
      (B' := fun s => ρ * (Real.exp (-(ω / 4 * s)) * -(ω / 4))) (a := 0) (b := T)
      (hcs.comp_continuousOn hcx) ?_ ?_ ?_ ?_ ?_ ht
    · intro s hs q hq
      have hst : s ∈ Icc 0 T := ⟨hs.1, hs.2.le⟩
      refine Eventually.frequently ?_
      -- the difference to the linear flow from the same state
      have hd1 : HasDerivWithinAt x (M (x s) + N (x s)) (Ioi s) s :=
        ((hx s hst).mono_of_mem_nhdsWithin (Icc_mem_nhdsGT_of_mem hs))
      have hd2 : HasDerivWithinAt (fun τ => linFlow M (x s) (τ - s)) (M (x s)) (Ioi s) s := by
        have h0 : HasDerivAt (fun τ : ℝ => τ - s) 1 s := (hasDerivAt_id s).sub_const s
        have h1 := HasDerivAt.scomp (h := fun τ : ℝ => τ - s) s (linFlow_deriv M (x s) (s - s)) h0
        rw [one_smul, sub_self, linFlow_zero] at h1
        exact h1.hasDerivWithinAt
      have hd3 := hd1.sub hd2
      rw [add_sub_cancel_left, hasDerivWithinAt_iff_tendsto_slope' (by simp)] at hd3
      have hd4 : HasDerivWithinAt (fun τ => Real.exp (-(ω * (τ - s)))) (-ω) (Ioi s) s := by
        have h1 : HasDerivAt (fun τ : ℝ => -(ω * (τ - s))) (-ω) s := by
          refine (((hasDerivAt_id s).sub_const s).const_mul ω).fun_neg.congr_deriv ?_
          ring
        have h2 := h1.exp
        simp only [sub_self, mul_zero, neg_zero, Real.exp_zero, one_mul] at h2
        exact h2.hasDerivWithinAt
      rw [hasDerivWithinAt_iff_tendsto_slope' (by simp)] at hd4
      have hlim : Tendsto (fun τ => slope (fun τ => Real.exp (-(ω * (τ - s)))) s τ * flowSize M ω (x s) +
          C * ‖slope (fun τ => x τ - linFlow M (x s) (τ - s)) s τ‖) (𝓝[>] s) (𝓝 (-ω * flowSize M ω (x s) + C * ‖N (x s)‖)) :=
        (hd4.mul_const _).add (hd3.norm.const_mul C)
      filter_upwards [hlim.eventually (gt_mem_nhds hq), self_mem_nhdsWithin] with τ hτ hsτ
      refine lt_of_le_of_lt ?_ hτ
      have hpos : 0 < τ - s := sub_pos.2 hsτ
      have e1 : flowSize M ω (x τ) ≤ Real.exp (-(ω * (τ - s))) * flowSize M ω (x s) + C * ‖x τ - linFlow M (x s) (τ - s)‖ := by
        have h1 := flowSize_add hM (linFlow M (x s) (τ - s)) (x τ - linFlow M (x s) (τ - s))
        rw [add_sub_cancel] at h1
        have h2 := flowSize_flow hM (x s) hpos.le
        have h3 := flowSize_le hM (x τ - linFlow M (x s) (τ - s))
        linarith
      rw [slope_def_field, slope_def_field, slope_def_module]
      simp only [sub_self, mul_zero, neg_zero, Real.exp_zero, linFlow_zero, sub_zero]
      rw [norm_smul, norm_inv, Real.norm_eq_abs, abs_of_pos hpos, div_mul_eq_mul_div, div_le_iff₀ hpos, add_mul]
      have e2 : C * ((τ - s)⁻¹ * ‖x τ - linFlow M (x s) (τ - s)‖) * (τ - s) = C * ‖x τ - linFlow M (x s) (τ - s)‖ := by
        field_simp
      rw [e2, div_mul_cancel₀ _ hpos.ne']
      linarith
    · simp only [mul_zero, neg_zero, Real.exp_zero, mul_one]
      exact (flowSize_le hM (x 0)).trans hxρ
    · exact (by fun_prop : Continuous fun s => ρ * Real.exp (-(ω / 4 * s))).continuousOn
    · intro s _
      have h1 : HasDerivAt (fun τ : ℝ => -(ω / 4 * τ)) (-(ω / 4)) s := by
        refine ((hasDerivAt_id s).const_mul (ω / 4)).fun_neg.congr_deriv ?_
        ring
      exact (h1.exp.const_mul ρ).hasDerivWithinAt
    · intro s hs he
      have hb : flowSize M ω (x s) = ρ * Real.exp (-(ω / 4 * s)) := he
      have hle : Real.exp (-(ω / 4 * s)) ≤ 1 := Real.exp_le_one_iff.2 (by have := hs.1; nlinarith)
      have hns := norm_le_flowSize hM (x s)
      have hδs : ‖x s‖ ≤ δ := by
        rw [hb] at hns
        have := mul_le_mul_of_nonneg_left hle hρ.le
        linarith
      have h1 := hN (x s) hδs
      have h2 : C * ‖N (x s)‖ ≤ ω / 2 * ‖x s‖ := by
        have := mul_le_mul_of_nonneg_left h1 hC.le
        refine this.trans (le_of_eq ?_)
        field_simp
      have hp : 0 < ρ * Real.exp (-(ω / 4 * s)) := mul_pos hρ (Real.exp_pos _)
      rw [hb] at hns ⊢
      have h3 := mul_le_mul_of_nonneg_left hns (by positivity : 0 ≤ ω / 2)
      nlinarith
  have hn := norm_le_flowSize hM (x t)
  by_cases hz : ‖x 0‖ = 0
  · rw [hz, mul_zero]
    refine le_of_forall_pos_le_add fun ε hε => ?_
    have hm : 0 < min ε δ := lt_min hε hδ
    have h1 := key (min ε δ) hm (by rw [hz, mul_zero]; exact hm.le) (min_le_right _ _)
    have hle : Real.exp (-(ω / 4 * t)) ≤ 1 := Real.exp_le_one_iff.2 (by have := ht.1; nlinarith)
    have h2 := mul_le_mul_of_nonneg_left hle hm.le
    have h3 := min_le_left ε δ
    linarith
  · have hp : 0 < ‖x 0‖ := lt_of_le_of_ne (norm_nonneg _) (Ne.symm hz)
    have h1 := key (2 * C * ‖x 0‖) (by positivity) (by nlinarith [mul_pos hC hp]) (by
      have := mul_le_mul_of_nonneg_left h0 (by positivity : 0 ≤ 2 * C)
      refine this.trans ?_
      have e : 2 * C * (δ / (4 * C)) = δ / 2 := by field_simp; ring
      rw [e]; linarith)
    refine hn.trans (h1.trans (le_of_eq ?_))
    ring

end
end WTM
