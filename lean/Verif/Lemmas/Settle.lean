import Mathlib.Analysis.SpecialFunctions.Exponential
import Mathlib.Analysis.SpecialFunctions.Log.Basic
import Mathlib.Analysis.SpecialFunctions.Pow.Real
import Mathlib.Analysis.Calculus.Deriv.MeanValue
import Mathlib.Topology.Algebra.Module.FiniteDimension
import Mathlib.Tactic.Linarith
import Verif.Lemmas.Global

/-! Linear systems that lose energy until they are at rest settle exponentially. -/
set_option autoImplicit false
namespace WTM
open Set Topology Filter

section
variable {E : Type} [NormedAddCommGroup E] [NormedSpace ℝ E] [FiniteDimensional ℝ E]

/-- Motion of a linear system. -/
noncomputable def linFlow (M : E →L[ℝ] E) (v : E) (t : ℝ) : E := NormedSpace.exp (t • M) v

omit [FiniteDimensional ℝ E] in
theorem linFlow_zero (M : E →L[ℝ] E) (v : E) : linFlow M v 0 = v := by
  unfold linFlow
  rw [zero_smul, NormedSpace.exp_zero]
  rfl

theorem linFlow_deriv (M : E →L[ℝ] E) (v : E) (t : ℝ) : HasDerivAt (linFlow M v) (M (linFlow M v t)) t := by
  have : CompleteSpace E := FiniteDimensional.complete ℝ E
  have h := (hasDerivAt_exp_smul_const' (𝕂 := ℝ) M t).clm_apply (hasDerivAt_const t v)
  simp only [map_zero, add_zero] at h
  exact h

theorem linFlow_unique (M : E →L[ℝ] E) {x : ℝ → E} {T : ℝ} (hx : ∀ t ∈ Icc 0 T, HasDerivWithinAt x (M (x t)) (Icc 0 T) t) :
    ∀ t ∈ Icc 0 T, x t = linFlow M (x 0) t :=
  unique_auto (F := fun u => M u) (y1 := x) (y2 := linFlow M (x 0)) M.lipschitz.locallyLipschitz hx
    (fun t _ => (linFlow_deriv M (x 0) t).hasDerivWithinAt) (linFlow_zero M (x 0)).symm

theorem linFlow_add (M : E →L[ℝ] E) (v : E) {s t : ℝ} (ht : 0 ≤ t) : linFlow M v (s + t) = linFlow M (linFlow M v s) t := by
  have h : ∀ τ ∈ Icc 0 t, HasDerivWithinAt (fun τ => linFlow M v (s + τ)) (M (linFlow M v (s + τ))) (Icc 0 t) τ := by
    intro τ _
    have := (linFlow_deriv M v (s + τ)).scomp τ ((hasDerivAt_id τ).const_add s)
    rw [one_smul] at this
    exact this.hasDerivWithinAt
  have := linFlow_unique M h t ⟨ht, le_rfl⟩
  rw [add_zero] at this
  exact this

/-- The flow with a forcing. -/
noncomputable def linForced (M : E →L[ℝ] E) (f : ℝ → E) (v : E) (t : ℝ) : E :=
  NormedSpace.exp (t • M) (v + ∫ s in (0 : ℝ)..t, NormedSpace.exp (s • -M) (f s))

omit [FiniteDimensional ℝ E] in
theorem linForced_zero (M : E →L[ℝ] E) (f : ℝ → E) (v : E) : linForced M f v 0 = v := by
  unfold linForced
  rw [zero_smul, NormedSpace.exp_zero, intervalIntegral.integral_same, add_zero]
  rfl

theorem linForced_deriv (M : E →L[ℝ] E) {f : ℝ → E} (hf : Continuous f) (v : E) (t : ℝ) :
    HasDerivAt (linForced M f v) (M (linForced M f v t) + f t) t := by
  have : CompleteSpace E := FiniteDimensional.complete ℝ E
  have hc : Continuous fun s : ℝ => NormedSpace.exp (s • -M) (f s) := by
    refine Continuous.clm_apply ?_ hf
    exact continuous_iff_continuousAt.2 fun s => (hasDerivAt_exp_smul_const' (𝕂 := ℝ) (-M) s).continuousAt
  have h1 := (hasDerivAt_exp_smul_const' (𝕂 := ℝ) M t).clm_apply
    ((intervalIntegral.integral_hasDerivAt_right (hc.intervalIntegrable 0 t) (hc.stronglyMeasurableAtFilter _ _) hc.continuousAt).const_add v)
  refine h1.congr_deriv ?_
  have hinv : NormedSpace.exp (t • M) (NormedSpace.exp (t • -M) (f t)) = f t := by
    have hcomm : Commute (t • M) (t • -M) := ((Commute.refl M).neg_right.smul_right t).smul_left t
    have : NormedAlgebra ℚ (E →L[ℝ] E) := NormedAlgebra.restrictScalars ℚ ℝ _
    have := NormedSpace.exp_add_of_commute hcomm
    rw [smul_neg, add_neg_cancel, NormedSpace.exp_zero, ← smul_neg] at this
    have h2 := congrArg (fun L : E →L[ℝ] E => L (f t)) this
    exact h2.symm
  rw [hinv]
  rfl

/-- An energy `Q` that falls at the rate `D`, where only the state at rest loses nothing over a while: it falls exponentially. -/
theorem settle (M : E →L[ℝ] E) (Q D : E → ℝ) (hQc : Continuous Q) (hQ0 : ∀ u, 0 ≤ Q u) (hQd : ∀ u, Q u = 0 → u = 0)
    (hQs : ∀ (c : ℝ) u, Q (c • u) = c ^ 2 * Q u)
    (hd : ∀ (x : ℝ → E) t, HasDerivAt x (M (x t)) t → HasDerivAt (fun t => Q (x t)) (-D (x t)) t) (hD : ∀ u, 0 ≤ D u)
    (hker : ∀ x : ℝ → E, (∀ t, HasDerivAt x (M (x t)) t) → (∀ t, 0 < t → D (x t) = 0) → ∃ t, 0 < t ∧ x t = 0) :
    ∃ C ω : ℝ, 0 < C ∧ 0 < ω ∧ ∀ (x : ℝ → E) (T : ℝ), (∀ t ∈ Icc 0 T, HasDerivWithinAt x (M (x t)) (Icc 0 T) t) →
      ∀ t ∈ Icc 0 T, Q (x t) ≤ C * Real.exp (-(ω * t)) * Q (x 0) := by
  have hanti : ∀ v, Antitone fun t => Q (linFlow M v t) := fun v =>
    antitone_of_hasDerivAt_nonpos (fun t => hd _ t (linFlow_deriv M v t)) fun t => neg_nonpos.2 (hD _)
  have hlt1 : ∀ v, v ≠ 0 → ∃ n : ℕ, Q (linFlow M v (n + 1 : ℕ)) < Q v := by
    intro v hv
    by_contra hge
    push Not at hge
    have hconst : ∀ t, 0 ≤ t → Q (linFlow M v t) = Q v := by
      intro t ht
      obtain ⟨n, hn⟩ := exists_nat_ge t
      have h1 := hanti v ht
      have h2 := hanti v (hn.trans (by push_cast; linarith : (n : ℝ) ≤ (n + 1 : ℕ)))
      have h3 := hge n
      simp only [linFlow_zero] at h1 h2
      linarith
    have hz : ∀ t, 0 < t → D (linFlow M v t) = 0 := by
      intro t ht
      have h1 := hd _ t (linFlow_deriv M v t)
      have h2 : HasDerivAt (fun t => Q (linFlow M v t)) 0 t := by
        refine (hasDerivAt_const t (Q v)).congr_of_eventuallyEq ?_
        filter_upwards [Ioi_mem_nhds ht] with s hs
        exact hconst s (le_of_lt hs)
      have := h1.unique h2
      linarith
    obtain ⟨t, ht, h0⟩ := hker _ (linFlow_deriv M v) hz
    have h1 := hconst t ht.le
    have hQz : Q 0 = 0 := by
      have := hQs 0 0
      rw [zero_smul] at this
      rw [this]; ring
    rw [h0, hQz] at h1
    exact hv (hQd v h1.symm)
  obtain ⟨n, hlt⟩ : ∃ n : ℕ, ∀ v ∈ Metric.sphere (0 : E) 1, Q (linFlow M v (n + 1 : ℕ)) < Q v := by
    have hK : IsCompact (Metric.sphere (0 : E) 1) := by
      have : ProperSpace E := FiniteDimensional.proper ℝ E
      exact isCompact_sphere 0 1
    have hopen : ∀ n : ℕ, IsOpen {v : E | Q (linFlow M v (n + 1 : ℕ)) < Q v} := fun n =>
      isOpen_lt (hQc.comp (NormedSpace.exp (((n + 1 : ℕ) : ℝ) • M)).continuous) hQc
    have hmono : Monotone fun n : ℕ => {v : E | Q (linFlow M v (n + 1 : ℕ)) < Q v} := by
      intro a b hab v hv
      have h1 : ((a + 1 : ℕ) : ℝ) ≤ (b + 1 : ℕ) := by exact_mod_cast Nat.succ_le_succ hab
      exact lt_of_le_of_lt (hanti v h1) hv
    obtain ⟨n, hn⟩ := hK.elim_directed_cover _ hopen (fun v hv => by
      have h0 : v ≠ 0 := by
        intro h0
        rw [h0, mem_sphere_zero_iff_norm, norm_zero] at hv
        exact zero_ne_one hv
      obtain ⟨n, hn⟩ := hlt1 v h0
      exact mem_iUnion.2 ⟨n, hn⟩) hmono.directed_le
    exact ⟨n, fun v hv => hn hv⟩
  set τ : ℝ := ((n + 1 : ℕ) : ℝ) with hτ
  have hτ0 : 0 < τ := by rw [hτ]; exact_mod_cast Nat.succ_pos n
  -- the loss over a while
  obtain ⟨θ, hθ0, hθ1, hθ⟩ : ∃ θ : ℝ, 0 < θ ∧ θ < 1 ∧ ∀ v, Q (linFlow M v τ) ≤ θ * Q v := by
    have hK : IsCompact (Metric.sphere (0 : E) 1) := by
      have : ProperSpace E := FiniteDimensional.proper ℝ E
      exact isCompact_sphere 0 1
    have hne : ∀ v ∈ Metric.sphere (0 : E) 1, v ≠ 0 := by
      intro v hv h0
      rw [h0, mem_sphere_zero_iff_norm, norm_zero] at hv
      exact zero_ne_one hv
    have hQp : ∀ v, v ≠ 0 → 0 < Q v := fun v hv => lt_of_le_of_ne (hQ0 v) fun h => hv (hQd v h.symm)
    have hcont : ContinuousOn (fun v => Q (linFlow M v τ) / Q v) (Metric.sphere (0 : E) 1) := by
      refine ContinuousOn.div ?_ hQc.continuousOn fun v hv => (hQp v (hne v hv)).ne'
      exact (hQc.comp (NormedSpace.exp (τ • M)).continuous).continuousOn
    have hbound : ∃ θ : ℝ, 0 < θ ∧ θ < 1 ∧ ∀ v ∈ Metric.sphere (0 : E) 1, Q (linFlow M v τ) / Q v ≤ θ := by
      rcases (Metric.sphere (0 : E) 1).eq_empty_or_nonempty with h | h
      · refine ⟨1 / 2, by norm_num, by norm_num, fun v hv => ?_⟩
        rw [h] at hv
        exact absurd hv (notMem_empty v)
      · obtain ⟨w, hw, hmax⟩ := hK.exists_isMaxOn h hcont
        refine ⟨max (1 / 2) (Q (linFlow M w τ) / Q w), lt_of_lt_of_le (by norm_num) (le_max_left _ _), max_lt (by norm_num) ?_,
          fun v hv => (hmax hv).trans (le_max_right _ _)⟩
        rw [div_lt_one (hQp w (hne w hw))]
        exact hlt w hw
    obtain ⟨θ, h0, h1, hb⟩ := hbound
    refine ⟨θ, h0, h1, fun v => ?_⟩
    by_cases hv : v = 0
    · have hz : linFlow M v τ = v := by
        rw [hv]; unfold linFlow; exact map_zero _
      have hQz : Q v = 0 := by
        have := hQs 0 v
        rw [zero_smul] at this
        rw [hv, this]; ring
      rw [hz, hQz]; simp
    · have hn : ‖v‖ ≠ 0 := norm_ne_zero_iff.2 hv
      have hm : ‖v‖⁻¹ • v ∈ Metric.sphere (0 : E) 1 := by
        rw [mem_sphere_zero_iff_norm, norm_smul, norm_inv, norm_norm, inv_mul_cancel₀ hn]
      have h2 := hb _ hm
      have h3 : linFlow M (‖v‖⁻¹ • v) τ = ‖v‖⁻¹ • linFlow M v τ := by unfold linFlow; exact map_smul _ _ _
      have hp : 0 < (‖v‖⁻¹) ^ 2 := pow_pos (inv_pos.2 (norm_pos_iff.2 hv)) 2
      rw [h3, hQs, hQs, mul_div_mul_left _ _ hp.ne', div_le_iff₀ (hQp v hv)] at h2
      exact h2
  have hpow : ∀ (n : ℕ) v, Q (linFlow M v (n * τ)) ≤ θ ^ n * Q v := by
    intro n v
    induction n with
    | zero => simp [linFlow_zero]
    | succ n ih =>
      push_cast
      rw [add_mul, one_mul, linFlow_add M v hτ0.le]
      calc _ ≤ θ * Q (linFlow M v (n * τ)) := hθ _
        _ ≤ θ * (θ ^ n * Q v) := mul_le_mul_of_nonneg_left ih hθ0.le
        _ = θ ^ (n + 1) * Q v := by ring
  refine ⟨1 / θ, -Real.log θ / τ, by positivity, div_pos (neg_pos.2 (Real.log_neg hθ0 hθ1)) hτ0, fun x T hx t ht => ?_⟩
  rw [linFlow_unique M hx t ht]
  have hq : 0 ≤ t / τ := div_nonneg ht.1 hτ0.le
  have h1 : Q (linFlow M (x 0) t) ≤ Q (linFlow M (x 0) (⌊t / τ⌋₊ * τ)) :=
    hanti _ ((le_div_iff₀ hτ0).1 (Nat.floor_le hq))
  have h2 := hpow ⌊t / τ⌋₊ (x 0)
  have h3 : θ ^ ⌊t / τ⌋₊ ≤ 1 / θ * Real.exp (-(-Real.log θ / τ * t)) := by
    rw [show -(-Real.log θ / τ * t) = Real.log θ * (t / τ) by ring, ← Real.rpow_def_of_pos hθ0, ← Real.rpow_natCast, one_div,
      ← Real.rpow_neg_one, ← Real.rpow_add hθ0]
    refine Real.rpow_le_rpow_of_exponent_ge hθ0 hθ1.le ?_
    have := Nat.lt_floor_add_one (t / τ)
    linarith
  exact h1.trans (h2.trans (mul_le_mul_of_nonneg_right h3 (hQ0 _)))

/-- So does the state itself. -/
theorem settle_norm (M : E →L[ℝ] E) (Q D : E → ℝ) (hQc : Continuous Q) (hQ0 : ∀ u, 0 ≤ Q u) (hQd : ∀ u, Q u = 0 → u = 0)
    (hQs : ∀ (c : ℝ) u, Q (c • u) = c ^ 2 * Q u)
    (hd : ∀ (x : ℝ → E) t, HasDerivAt x (M (x t)) t → HasDerivAt (fun t => Q (x t)) (-D (x t)) t) (hD : ∀ u, 0 ≤ D u)
    (hker : ∀ x : ℝ → E, (∀ t, HasDerivAt x (M (x t)) t) → (∀ t, 0 < t → D (x t) = 0) → ∃ t, 0 < t ∧ x t = 0) :
    ∃ C ω : ℝ, 0 < C ∧ 0 < ω ∧ ∀ (x : ℝ → E) (T : ℝ), (∀ t ∈ Icc 0 T, HasDerivWithinAt x (M (x t)) (Icc 0 T) t) →
      ∀ t ∈ Icc 0 T, ‖x t‖ ≤ C * Real.exp (-(ω * t)) * ‖x 0‖ := by
  obtain ⟨C, ω, hC, hω, hx⟩ := settle M Q D hQc hQ0 hQd hQs hd hD hker
  have hK : IsCompact (Metric.sphere (0 : E) 1) := by
    have : ProperSpace E := FiniteDimensional.proper ℝ E
    exact isCompact_sphere 0 1
  have hne : ∀ v ∈ Metric.sphere (0 : E) 1, v ≠ 0 := by
    intro v hv h0
    rw [h0, mem_sphere_zero_iff_norm, norm_zero] at hv
    exact zero_ne_one hv
  have hQp : ∀ v, v ≠ 0 → 0 < Q v := fun v hv => lt_of_le_of_ne (hQ0 v) fun h => hv (hQd v h.symm)
  obtain ⟨k, K, hk, hKp, hs⟩ : ∃ k K : ℝ, 0 < k ∧ 0 < K ∧ ∀ v ∈ Metric.sphere (0 : E) 1, k ≤ Q v ∧ Q v ≤ K := by
    rcases (Metric.sphere (0 : E) 1).eq_empty_or_nonempty with h | h
    · refine ⟨1, 1, one_pos, one_pos, fun v hv => ?_⟩
      rw [h] at hv
      exact absurd hv (notMem_empty v)
    · obtain ⟨w, hw, hmax⟩ := hK.exists_isMaxOn h hQc.continuousOn
      obtain ⟨w', hw', hmin⟩ := hK.exists_isMinOn h hQc.continuousOn
      exact ⟨Q w', Q w, hQp _ (hne _ hw'), hQp _ (hne _ hw), fun v hv => ⟨hmin hv, hmax hv⟩⟩
  have hb : ∀ v, k * ‖v‖ ^ 2 ≤ Q v ∧ Q v ≤ K * ‖v‖ ^ 2 := by
    intro v
    by_cases hv : v = 0
    · have hQz : Q v = 0 := by
        have := hQs 0 v
        rw [zero_smul] at this
        rw [hv, this]; ring
      rw [hQz, hv]; simp
    · have hn : ‖v‖ ≠ 0 := norm_ne_zero_iff.2 hv
      have hm : ‖v‖⁻¹ • v ∈ Metric.sphere (0 : E) 1 := by
        rw [mem_sphere_zero_iff_norm, norm_smul, norm_inv, norm_norm, inv_mul_cancel₀ hn]
      have h2 := hs _ hm
      rw [hQs, inv_pow] at h2
      have hp : 0 < ‖v‖ ^ 2 := by positivity
      rw [inv_mul_eq_div, le_div_iff₀ hp, div_le_iff₀ hp] at h2
      exact h2
  refine ⟨Real.sqrt (C * K / k), ω / 2, by positivity, by positivity, fun x T hxT t ht => ?_⟩
  have h1 := hx x T hxT t ht
  have h2 := (hb (x t)).1.trans (h1.trans (mul_le_mul_of_nonneg_left (hb (x 0)).2 (by positivity)))
  have he : Real.exp (-(ω * t)) = Real.exp (-(ω / 2 * t)) ^ 2 := by
    rw [sq, ← Real.exp_add]; congr 1; ring
  have h3 : ‖x t‖ ^ 2 ≤ (Real.sqrt (C * K / k) * Real.exp (-(ω / 2 * t)) * ‖x 0‖) ^ 2 := by
    rw [mul_pow, mul_pow, Real.sq_sqrt (by positivity), ← he, ← mul_le_mul_iff_right₀ hk]
    refine h2.trans (le_of_eq ?_)
    field_simp
  exact le_of_sq_le_sq h3 (by positivity)

end

end WTM
