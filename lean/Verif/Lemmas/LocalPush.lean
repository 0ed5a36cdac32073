import Verif.Lemmas.Duhamel

/-! A system near rest whose linear part settles, under a small push: it stays within a multiple of the push, and tends to rest when the push
dies out. -/
set_option autoImplicit false
namespace WTM
open Set Topology Filter

section
variable {E : Type} [NormedAddCommGroup E] [NormedSpace ℝ E] [FiniteDimensional ℝ E] {M : E →L[ℝ] E} {C ω : ℝ}

/-- The bound, as long as the push lasts: the start is forgotten, the push counts with a gain. The remainder `g` is small along the run. -/
theorem local_push_along (hω : 0 < ω) (hC : 0 < C) (hM : ∀ v t, 0 ≤ t → ‖linFlow M v t‖ ≤ C * Real.exp (-(ω * t)) * ‖v‖) {δ : ℝ} {x g b : ℝ → E} {T β : ℝ}
    (hN : ∀ t ∈ Icc 0 T, ‖x t‖ ≤ δ → ‖g t‖ ≤ ω / (2 * C) * ‖x t‖)
    (hx : ∀ t ∈ Icc 0 T, HasDerivWithinAt x (M (x t) + (g t + b t)) (Icc 0 T) t) (hb : ∀ t ∈ Icc 0 T, ‖b t‖ ≤ β)
    (hR : C * ‖x 0‖ + 2 * C * β / ω < δ) : ∀ t ∈ Icc 0 T, ‖x t‖ ≤ C * Real.exp (-(ω / 4 * t)) * ‖x 0‖ + 2 * C * β / ω := by
  intro t ht
  have hβ : 0 ≤ β := (norm_nonneg _).trans (hb t ht)
  have key : ∀ ρ σ : ℝ, 0 ≤ ρ → 2 * C * β / ω < σ → C * ‖x 0‖ ≤ ρ → ρ + σ ≤ δ → flowSize M ω (x t) ≤ ρ * Real.exp (-(ω / 4 * t)) + σ := by
    intro ρ σ hρ hσ hxρ hρδ
    have hσ0 : 0 ≤ σ := le_trans (by positivity) hσ.le
    have hcx : ContinuousOn x (Icc 0 T) := fun s hs => (hx s hs).continuousWithinAt
    have hcs : Continuous (flowSize M ω) := by
      have hl : LipschitzWith (Real.toNNReal C) (flowSize M ω) := by
        refine LipschitzWith.of_le_add_mul _ fun u v => ?_
        have h1 := flowSize_add hM v (u - v)
        rw [add_sub_cancel] at h1
        have h2 := flowSize_le hM (u - v)
        rw [dist_eq_norm, Real.coe_toNNReal _ hC.le]
        linarith
      exact hl.continuous
    refine image_le_of_liminf_slope_right_lt_deriv_boundary' (f := fun s => flowSize M ω (x s))
      (f' := fun s => -ω * flowSize M ω (x s) + C * ‖g s + b s‖) (B := fun s => ρ * Real.exp (-(ω / 4 * s)) + σ)
      (B' := fun s => ρ * (Real.exp (-(ω / 4 * s)) * -(ω / 4))) (a := 0) (b := T)
      (hcs.comp_continuousOn hcx) ?_ ?_ ?_ ?_ ?_ ht
    · intro s hs q hq
      have hst : s ∈ Icc 0 T := ⟨hs.1, hs.2.le⟩
      refine Eventually.frequently ?_
      -- the difference to the linear flow from the same state
      have hd1 : HasDerivWithinAt x (M (x s) + (g s + b s)) (Ioi s) s :=
        ((hx s hst).mono_of_mem_nhdsWithin (Icc_mem_nhdsGT_of_mem hs))
      have hd2 : HasDerivWithinAt (fun τ => linFlow M (x s) (τ - s)) (M (x s)) (Ioi s) s := by
        have h0 : HasDerivAt (fun τ : ℝ => τ - s) 1 s := (hasDerivAt_id s).sub_const s
        have h1 := HasDerivAt.scomp (h := fun τ : ℝ => τ - s) s (linFlow_deriv M (x s) (s - s)) h0
        rw [one_smul, sub_self, linFlow_zero] at h1
        exact h1.hasDerivWithinAt
      have hd3 := hd1.sub hd2
      rw [add_sub_cancel_left, hasDerivWithinAt_iff_tendsto_slope' (by simp)] at hd3
      have hd4 : HasDerivWithinAt (fun τ => Real.exp (-(ω * (τ - s)))) (-ω) (Ioi s) s := by
        have h1 : HasDerivAt (fun τ : ℝ => -(ω * (τ - s))) (-ω) s := by
          refine (((hasDerivAt_id s).sub_const s).const_mul ω).fun_neg.congr_deriv ?_
          ring
        have h2 := h1.exp
        simp only [sub_self, mul_zero, neg_zero, Real.exp_zero, one_mul] at h2
        exact h2.hasDerivWithinAt
      rw [hasDerivWithinAt_iff_tendsto_slope' (by simp)] at hd4
      have hlim : Tendsto (fun τ => slope (fun τ => Real.exp (-(ω * (τ - s)))) s τ * flowSize M ω (x s) +
          C * ‖slope (fun τ => x τ - linFlow M (x s) (τ - s)) s τ‖) (𝓝[>] s) (𝓝 (-ω * flowSize M ω (x s) + C * ‖g s + b s‖)) :=
        (hd4.mul_const _).add (hd3.norm.const_mul C)
      filter_upwards [hlim.eventually (gt_mem_nhds hq), self_mem_nhdsWithin] with τ hτ hsτ
      refine lt_of_le_of_lt ?_ hτ
      have hpos : 0 < τ - s := sub_pos.2 hsτ
      have e1 : flowSize M ω (x τ) ≤ Real.exp (-(ω * (τ - s))) * flowSize M ω (x s) + C * ‖x τ - linFlow M (x s) (τ - s)‖ := by
        have h1 := flowSize_add hM (linFlow M (x s) (τ - s)) (x τ - linFlow M (x s) (τ - s))
        rw [add_sub_cancel] at h1
        have h2 := flowSize_flow hM (x s) hpos.le
        have h3 := flowSize_le hM (x τ - linFlow M (x s) (τ - s))
        linarith
      rw [slope_def_field, slope_def_field, slope_def_module]
      simp only [sub_self, mul_zero, neg_zero, Real.exp_zero, linFlow_zero, sub_zero]
      rw [norm_smul, norm_inv, Real.norm_eq_abs, abs_of_pos hpos, div_mul_eq_mul_div, div_le_iff₀ hpos, add_mul]
      have e2 : C * ((τ - s)⁻¹ * ‖x τ - linFlow M (x s) (τ - s)‖) * (τ - s) = C * ‖x τ - linFlow M (x s) (τ - s)‖ := by
        field_simp
      rw [e2, div_mul_cancel₀ _ hpos.ne']
      linarith
    · simp only [mul_zero, neg_zero, Real.exp_zero, mul_one]
      have := (flowSize_le hM (x 0)).trans hxρ
      linarith
    · exact (by fun_prop : Continuous fun s => ρ * Real.exp (-(ω / 4 * s)) + σ).continuousOn
    · intro s _
      have h1 : HasDerivAt (fun τ : ℝ => -(ω / 4 * τ)) (-(ω / 4)) s := by
        refine ((hasDerivAt_id s).const_mul (ω / 4)).fun_neg.congr_deriv ?_
        ring
      exact ((h1.exp.const_mul ρ).add_const σ).hasDerivWithinAt
    · intro s hs he
      have hV : flowSize M ω (x s) = ρ * Real.exp (-(ω / 4 * s)) + σ := he
      have hle : Real.exp (-(ω / 4 * s)) ≤ 1 := Real.exp_le_one_iff.2 (by have := hs.1; nlinarith)
      have hns := norm_le_flowSize hM (x s)
      have hδs : ‖x s‖ ≤ δ := by
        rw [hV] at hns
        have := mul_le_mul_of_nonneg_left hle hρ
        linarith
      have h1 := (norm_add_le (g s) (b s)).trans (add_le_add (hN s ⟨hs.1, hs.2.le⟩ hδs) (hb s ⟨hs.1, hs.2.le⟩))
      have h2 : C * ‖g s + b s‖ ≤ ω / 2 * ‖x s‖ + C * β := by
        have := mul_le_mul_of_nonneg_left h1 hC.le
        refine this.trans (le_of_eq ?_)
        field_simp
      have hp : 0 ≤ ρ * Real.exp (-(ω / 4 * s)) := mul_nonneg hρ (Real.exp_pos _).le
      rw [hV] at hns ⊢
      have h3 := mul_le_mul_of_nonneg_left hns (by positivity : 0 ≤ ω / 2)
      have h4 : 2 * C * β < σ * ω := (div_lt_iff₀ hω).1 hσ
      nlinarith
  have hn := norm_le_flowSize hM (x t)
  refine le_of_forall_pos_le_add fun ε hε => ?_
  set g := min ε (δ - (C * ‖x 0‖ + 2 * C * β / ω)) with hg
  have hg0 : 0 < g := lt_min hε (by linarith)
  have h1 := key (C * ‖x 0‖) (2 * C * β / ω + g) (by positivity) (by linarith) le_rfl (by
    have := min_le_right ε (δ - (C * ‖x 0‖ + 2 * C * β / ω)); linarith)
  have h2 : g ≤ ε := min_le_left _ _
  have e : C * ‖x 0‖ * Real.exp (-(ω / 4 * t)) = C * Real.exp (-(ω / 4 * t)) * ‖x 0‖ := by ring
  linarith

theorem local_push (hω : 0 < ω) (hC : 0 < C) (hM : ∀ v t, 0 ≤ t → ‖linFlow M v t‖ ≤ C * Real.exp (-(ω * t)) * ‖v‖) {N : E → E} {δ : ℝ}
    (hN : ∀ u, ‖u‖ ≤ δ → ‖N u‖ ≤ ω / (2 * C) * ‖u‖) {x b : ℝ → E} {T β : ℝ}
    (hx : ∀ t ∈ Icc 0 T, HasDerivWithinAt x (M (x t) + (N (x t) + b t)) (Icc 0 T) t) (hb : ∀ t ∈ Icc 0 T, ‖b t‖ ≤ β)
    (hR : C * ‖x 0‖ + 2 * C * β / ω < δ) : ∀ t ∈ Icc 0 T, ‖x t‖ ≤ C * Real.exp (-(ω / 4 * t)) * ‖x 0‖ + 2 * C * β / ω :=
  local_push_along hω hC hM (fun t _ h => hN (x t) h) hx hb hR

/-- The state tends to rest when the push dies out. -/
theorem local_fade (hω : 0 < ω) (hC : 0 < C) (hM : ∀ v t, 0 ≤ t → ‖linFlow M v t‖ ≤ C * Real.exp (-(ω * t)) * ‖v‖) {N : E → E} {δ : ℝ}
    (hN : ∀ u, ‖u‖ ≤ δ → ‖N u‖ ≤ ω / (2 * C) * ‖u‖) {x b : ℝ → E}
    (hx : ∀ T, ∀ t ∈ Icc 0 T, HasDerivWithinAt x (M (x t) + (N (x t) + b t)) (Icc 0 T) t) (hb : Tendsto b atTop (𝓝 0))
    (hδ : 0 < δ) (hxδ : ∀ t, 0 ≤ t → ‖x t‖ ≤ δ) : Tendsto x atTop (𝓝 0) := by
  have step : ∀ m : ℝ, 0 < m → m ≤ δ → (∃ s, 0 ≤ s ∧ ∀ t, s ≤ t → ‖x t‖ ≤ m) → ∃ s, 0 ≤ s ∧ ∀ t, s ≤ t → ‖x t‖ ≤ 3 / 4 * m := by
    rintro m hm hmδ ⟨s, hs, hsm⟩
    have hp : 0 < ω * m / (8 * C) := by positivity
    obtain ⟨s1, hs1⟩ := eventually_atTop.1 (hb.eventually (Metric.ball_mem_nhds 0 hp))
    set s2 := max s s1 with hs2
    have hs20 : 0 ≤ s2 := hs.trans (le_max_left _ _)
    have hlim : Tendsto (fun t : ℝ => C * Real.exp (-(ω * t)) * m) atTop (𝓝 0) := by
      have h1 : Tendsto (fun t : ℝ => ω * t) atTop atTop := tendsto_id.const_mul_atTop hω
      have h3 := ((Real.tendsto_exp_neg_atTop_nhds_zero.comp h1).const_mul C).mul_const m
      simpa using h3
    obtain ⟨s3, hs3⟩ := eventually_atTop.1 (hlim.eventually (gt_mem_nhds (by positivity : 0 < m / 8)))
    refine ⟨s2 + max 0 s3, by have := le_max_left 0 s3; linarith, fun t ht => ?_⟩
    have ht0 : 0 ≤ t - s2 := by have := le_max_left 0 s3; linarith
    have ht3 : s3 ≤ t - s2 := by have := le_max_right 0 s3; linarith
    have hy := pushed_bound hC.le hω hM (x := fun τ => x (s2 + τ)) (b := fun τ => N (x (s2 + τ)) + b (s2 + τ)) (T := t - s2)
      (β := ω / (2 * C) * m + ω * m / (8 * C)) (fun τ hτ => by
        have h1 := hx t (s2 + τ) ⟨by linarith [hτ.1], by linarith [hτ.2]⟩
        have h2 : HasDerivWithinAt (fun τ : ℝ => s2 + τ) 1 (Icc 0 (t - s2)) τ := ((hasDerivAt_id τ).const_add s2).hasDerivWithinAt
        have h3 := HasDerivWithinAt.scomp (h := fun τ : ℝ => s2 + τ) τ h1 h2 (fun τ hτ => ⟨by linarith [hτ.1], by linarith [hτ.2]⟩)
        rw [one_smul] at h3
        exact h3) (fun τ hτ => by
        have h1 : ‖x (s2 + τ)‖ ≤ m := hsm _ (by have := le_max_left s s1; linarith [hτ.1])
        have h2 := hs1 (s2 + τ) (by have := le_max_right s s1; linarith [hτ.1])
        rw [dist_zero_right] at h2
        refine (norm_add_le _ _).trans (add_le_add ((hN _ (h1.trans hmδ)).trans ?_) h2.le)
        exact mul_le_mul_of_nonneg_left h1 (by positivity)) (t - s2) ⟨ht0, le_rfl⟩
    beta_reduce at hy
    rw [add_sub_cancel, add_zero] at hy
    have e : C * (ω / (2 * C) * m + ω * m / (8 * C)) / ω = m / 2 + m / 8 := by field_simp
    rw [e] at hy
    have h4 : C * Real.exp (-(ω * (t - s2))) * ‖x s2‖ ≤ C * Real.exp (-(ω * (t - s2))) * m :=
      mul_le_mul_of_nonneg_left (hsm _ (le_max_left _ _)) (by positivity)
    have h5 := hs3 (t - s2) ht3
    linarith
  have hpow : ∀ n : ℕ, ∃ s, 0 ≤ s ∧ ∀ t, s ≤ t → ‖x t‖ ≤ (3 / 4) ^ n * δ := by
    intro n
    induction n with
    | zero => exact ⟨0, le_rfl, fun t ht => by rw [pow_zero, one_mul]; exact hxδ t ht⟩
    | succ n ih =>
      have h1 : ((3 : ℝ) / 4) ^ n ≤ 1 := pow_le_one₀ (by norm_num) (by norm_num)
      obtain ⟨s, hs, h⟩ := step ((3 / 4) ^ n * δ) (by positivity) (by nlinarith) ih
      exact ⟨s, hs, fun t ht => (h t ht).trans (le_of_eq (by rw [pow_succ]; ring))⟩
  rw [tendsto_zero_iff_norm_tendsto_zero, Metric.tendsto_atTop]
  intro ε hε
  obtain ⟨n, hn⟩ := exists_pow_lt_of_lt_one (div_pos hε hδ) (by norm_num : (3 : ℝ) / 4 < 1)
  obtain ⟨s, -, h⟩ := hpow n
  refine ⟨s, fun t ht => ?_⟩
  rw [dist_zero_right, norm_norm]
  exact (h t ht).trans_lt ((lt_div_iff₀ hδ).1 hn)

/-- Both for a system `x' = F x + b t` with `M` the linear part of `F`, the push being at most `p` times its cause. -/
theorem near_waver (hω : 0 < ω) (hC : 0 < C) (hM : ∀ v t, 0 ≤ t → ‖linFlow M v t‖ ≤ C * Real.exp (-(ω * t)) * ‖v‖) {F : E → E}
    (hF : ∀ η > 0, ∃ δ > 0, ∀ u, ‖u‖ ≤ δ → ‖F u - M u‖ ≤ η * ‖u‖) {p : ℝ} (hp : 0 ≤ p) :
    ∃ δ K ν : ℝ, 0 < δ ∧ 0 < K ∧ 0 < ν ∧
      (∀ (x b : ℝ → E) (T β : ℝ), (∀ t ∈ Icc 0 T, HasDerivWithinAt x (F (x t) + b t) (Icc 0 T) t) → 0 ≤ β → (∀ t ∈ Icc 0 T, ‖b t‖ ≤ p * β) →
        ‖x 0‖ ≤ δ → β ≤ δ → ∀ t ∈ Icc 0 T, ‖x t‖ ≤ K * (Real.exp (-(ν * t)) * ‖x 0‖ + β)) ∧
      ∀ (x b : ℝ → E), (∀ T, ∀ t ∈ Icc 0 T, HasDerivWithinAt x (F (x t) + b t) (Icc 0 T) t) → (∀ t, 0 ≤ t → ‖b t‖ ≤ p * δ) →
        ‖x 0‖ ≤ δ → Tendsto b atTop (𝓝 0) → Tendsto x atTop (𝓝 0) := by
  obtain ⟨δ, hδ, hN⟩ := hF (ω / (2 * C)) (by positivity)
  set K := C + 2 * C * p / ω with hK
  have hK0 : 0 < K := by positivity
  have hKC : C ≤ K := by
    have : 0 ≤ 2 * C * p / ω := by positivity
    linarith
  have hsplit : ∀ u v : E, M u + ((F u - M u) + v) = F u + v := fun u v => by abel
  have hgain : ∀ (x b : ℝ → E) (T β : ℝ), (∀ t ∈ Icc 0 T, HasDerivWithinAt x (F (x t) + b t) (Icc 0 T) t) → 0 ≤ β →
      (∀ t ∈ Icc 0 T, ‖b t‖ ≤ p * β) → ‖x 0‖ ≤ δ / (2 * K) → β ≤ δ / (2 * K) →
      ∀ t ∈ Icc 0 T, ‖x t‖ ≤ C * Real.exp (-(ω / 4 * t)) * ‖x 0‖ + 2 * C * p / ω * β := by
    intro x b T β hx hβ0 hb hx0 hβδ t ht
    have hlt : C * ‖x 0‖ + 2 * C * (p * β) / ω < δ := by
      have e : 2 * C * (p * β) / ω = 2 * C * p / ω * β := by ring
      have h1 : C * ‖x 0‖ ≤ C * (δ / (2 * K)) := mul_le_mul_of_nonneg_left hx0 hC.le
      have h2 : 2 * C * p / ω * β ≤ 2 * C * p / ω * (δ / (2 * K)) := mul_le_mul_of_nonneg_left hβδ (by positivity)
      have h3 : C * (δ / (2 * K)) + 2 * C * p / ω * (δ / (2 * K)) = δ / 2 := by
        rw [← add_mul, ← hK]
        field_simp
      rw [e]
      linarith
    have := local_push hω hC hM hN (x := x) (b := b) (T := T) (β := p * β) (fun s hs => by rw [hsplit]; exact hx s hs) hb hlt t ht
    refine this.trans (le_of_eq ?_)
    ring
  refine ⟨δ / (2 * K), K, ω / 4, by positivity, hK0, by positivity, ?_, ?_⟩
  · intro x b T β hx hβ0 hb hx0 hβδ t ht
    refine (hgain x b T β hx hβ0 hb hx0 hβδ t ht).trans ?_
    have h1 : C * (Real.exp (-(ω / 4 * t)) * ‖x 0‖) ≤ K * (Real.exp (-(ω / 4 * t)) * ‖x 0‖) := mul_le_mul_of_nonneg_right hKC (by positivity)
    have h2 : 2 * C * p / ω * β ≤ K * β := mul_le_mul_of_nonneg_right (by rw [hK]; linarith) hβ0
    rw [mul_add, mul_assoc]
    linarith
  · intro x b hx hb hx0 hlim
    refine local_fade hω hC hM hN (x := x) (b := b) (fun T s hs => by rw [hsplit]; exact hx T s hs) hlim hδ fun t ht => ?_
    have h1 := hgain x b t (δ / (2 * K)) (hx t) (by positivity) (fun s hs => hb s hs.1) hx0 le_rfl t ⟨ht, le_rfl⟩
    have h3 : C * (δ / (2 * K)) + 2 * C * p / ω * (δ / (2 * K)) = δ / 2 := by
      rw [← add_mul, ← hK]
      field_simp
    have h4 : Real.exp (-(ω / 4 * t)) ≤ 1 := Real.exp_le_one_iff.2 (by have := mul_nonneg hω.le ht; linarith)
    have h5 : C * Real.exp (-(ω / 4 * t)) * ‖x 0‖ ≤ C * 1 * (δ / (2 * K)) :=
      mul_le_mul (mul_le_mul_of_nonneg_left h4 hC.le) hx0 (norm_nonneg _) (by positivity)
    linarith

end
end WTM
