import Verif.Lemmas.MultiPush

/-! A system near rest whose linear part settles: runs under like pushes come together, and under a small push that recurs there is a run that
recurs with it. -/
set_option autoImplicit false
namespace WTM
open Set Topology Filter

section
variable {E : Type} [NormedAddCommGroup E] [NormedSpace ℝ E] [FiniteDimensional ℝ E] {M : E →L[ℝ] E} {C ω : ℝ}

theorem run_shift {F : E → E} {x b : ℝ → E} {s : ℝ} (hs : 0 ≤ s)
    (hx : ∀ T, ∀ t ∈ Icc 0 T, HasDerivWithinAt x (F (x t) + b t) (Icc 0 T) t) :
    ∀ T, ∀ t ∈ Icc 0 T, HasDerivWithinAt (fun t => x (t + s)) (F (x (t + s)) + b (t + s)) (Icc 0 T) t := by
  intro T t ht
  have h1 := hx (T + s) (t + s) ⟨by linarith [ht.1], by linarith [ht.2]⟩
  have h2 : HasDerivWithinAt (fun τ : ℝ => τ + s) 1 (Icc 0 T) t := ((hasDerivAt_id t).add_const s).hasDerivWithinAt
  have h3 := HasDerivWithinAt.scomp (h := fun τ : ℝ => τ + s) t h1 h2 (fun τ hτ => ⟨by linarith [hτ.1], by linarith [hτ.2]⟩)
  rw [one_smul] at h3
  exact h3

/-- Runs near rest come together as far as their pushes agree. -/
theorem near_pair (hω : 0 < ω) (hC : 0 < C) (hM : ∀ v t, 0 ≤ t → ‖linFlow M v t‖ ≤ C * Real.exp (-(ω * t)) * ‖v‖) {F : E → E} (h0 : F 0 = 0)
    (hF : ∀ η > 0, ∃ δ > 0, ∀ u v, ‖u‖ ≤ δ → ‖v‖ ≤ δ → ‖F u - F v - M (u - v)‖ ≤ η * ‖u - v‖) {p : ℝ} (hp : 0 ≤ p) :
    ∃ δ K ν : ℝ, 0 < δ ∧ 0 < K ∧ 0 < ν ∧
      (∀ (x b : ℝ → E) (T β : ℝ), (∀ t ∈ Icc 0 T, HasDerivWithinAt x (F (x t) + b t) (Icc 0 T) t) → 0 ≤ β → (∀ t ∈ Icc 0 T, ‖b t‖ ≤ p * β) →
        ‖x 0‖ ≤ δ → β ≤ δ → ∀ t ∈ Icc 0 T, ‖x t‖ ≤ K * (Real.exp (-(ν * t)) * ‖x 0‖ + β)) ∧
      ∀ (x y b d : ℝ → E) (T γ : ℝ), (∀ t ∈ Icc 0 T, HasDerivWithinAt x (F (x t) + b t) (Icc 0 T) t) →
        (∀ t ∈ Icc 0 T, HasDerivWithinAt y (F (y t) + d t) (Icc 0 T) t) → (∀ t ∈ Icc 0 T, ‖b t‖ ≤ p * δ) → (∀ t ∈ Icc 0 T, ‖d t‖ ≤ p * δ) →
        0 ≤ γ → (∀ t ∈ Icc 0 T, ‖b t - d t‖ ≤ p * γ) → ‖x 0‖ ≤ δ → ‖y 0‖ ≤ δ →
        ∀ t ∈ Icc 0 T, ‖x t - y t‖ ≤ K * (Real.exp (-(ν * t)) * ‖x 0 - y 0‖ + γ) := by
  have hF1 : ∀ η > 0, ∃ δ > 0, ∀ u, ‖u‖ ≤ δ → ‖F u - M u‖ ≤ η * ‖u‖ := fun η hη => by
    obtain ⟨δ, hδ, h⟩ := hF η hη
    exact ⟨δ, hδ, fun u hu => by simpa [h0] using h u 0 hu (by simpa using hδ.le)⟩
  obtain ⟨δ1, K1, ν, hδ1, hK1, hν, hstay, -⟩ := near_waver hω hC hM hF1 hp
  obtain ⟨ρ, hρ, hN⟩ := hF (ω / (2 * C)) (by positivity)
  set K := max K1 (max C (2 * C * p / ω)) with hK
  have hKK : K1 ≤ K := le_max_left _ _
  have hKC : C ≤ K := (le_max_left _ _).trans (le_max_right _ _)
  have hKp : 2 * C * p / ω ≤ K := (le_max_right _ _).trans (le_max_right _ _)
  have hK0 : 0 < K := hK1.trans_le hKK
  set δ := min δ1 (ρ / (2 * K1)) with hδ
  have hδ0 : 0 < δ := lt_min hδ1 (by positivity)
  have hexp : ∀ {μ μ' t : ℝ}, 0 ≤ t → μ ≤ μ' → Real.exp (-(μ' * t)) ≤ Real.exp (-(μ * t)) := fun ht hμ =>
    Real.exp_le_exp.2 (by nlinarith)
  have hin : ∀ (x b : ℝ → E) (T : ℝ), (∀ t ∈ Icc 0 T, HasDerivWithinAt x (F (x t) + b t) (Icc 0 T) t) → (∀ t ∈ Icc 0 T, ‖b t‖ ≤ p * δ) →
      ‖x 0‖ ≤ δ → ∀ t ∈ Icc 0 T, ‖x t‖ ≤ ρ := by
    intro x b T hx hb hx0 t ht
    have h1 := hstay x b T δ hx hδ0.le hb (hx0.trans (min_le_left _ _)) (min_le_left _ _) t ht
    have h2 : Real.exp (-(ν * t)) ≤ 1 := Real.exp_le_one_iff.2 (by have := mul_nonneg hν.le ht.1; linarith)
    have h3 : Real.exp (-(ν * t)) * ‖x 0‖ ≤ 1 * δ := mul_le_mul h2 hx0 (norm_nonneg _) (by norm_num)
    have h4 : K1 * (Real.exp (-(ν * t)) * ‖x 0‖ + δ) ≤ K1 * (2 * (ρ / (2 * K1))) :=
      mul_le_mul_of_nonneg_left (by have := min_le_right δ1 (ρ / (2 * K1)); linarith) hK1.le
    have h5 : K1 * (2 * (ρ / (2 * K1))) = ρ := by field_simp
    linarith
  refine ⟨δ, K, min ν (ω / 4), hδ0, hK0, lt_min hν (by positivity), ?_, ?_⟩
  · intro x b T β hx hβ hb hx0 hβδ t ht
    refine (hstay x b T β hx hβ hb (hx0.trans (min_le_left _ _)) (hβδ.trans (min_le_left _ _)) t ht).trans ?_
    exact mul_le_mul hKK (add_le_add (mul_le_mul_of_nonneg_right (hexp ht.1 (min_le_left _ _)) (norm_nonneg _)) le_rfl) (by positivity) hK0.le
  · intro x y b d T γ hx hy hb hd hγ0 hbd hx0 hy0 t ht
    have h1 := local_push_along hω hC hM (x := fun t => x t - y t) (g := fun t => F (x t) - F (y t) - M (x t - y t)) (b := fun t => b t - d t)
      (T := T) (β := p * γ) (δ := C * ‖x 0 - y 0‖ + 2 * C * (p * γ) / ω + 1)
      (fun s hs _ => hN _ _ (hin x b T hx hb hx0 s hs) (hin y d T hy hd hy0 s hs)) (fun s hs => by
        refine ((hx s hs).fun_sub (hy s hs)).congr_deriv ?_
        abel) hbd (by linarith) t ht
    refine h1.trans ?_
    have e1 : C * Real.exp (-(ω / 4 * t)) * ‖x 0 - y 0‖ ≤ K * (Real.exp (-(min ν (ω / 4) * t)) * ‖x 0 - y 0‖) := by
      rw [mul_assoc]
      exact mul_le_mul hKC (mul_le_mul_of_nonneg_right (hexp ht.1 (min_le_right _ _)) (norm_nonneg _)) (by positivity) hK0.le
    have e2 : 2 * C * (p * γ) / ω ≤ K * γ := by
      refine le_trans (le_of_eq ?_) (mul_le_mul_of_nonneg_right hKp hγ0)
      ring
    rw [mul_add]
    exact add_le_add e1 e2

/-- Under a small push that recurs there is a run that recurs with it, near rest. -/
theorem near_cycle {F : E → E} {p δ K ν : ℝ} (hδ : 0 < δ) (hK : 0 < K) (hν : 0 < ν)
    (hstay : ∀ (x b : ℝ → E) (T β : ℝ), (∀ t ∈ Icc 0 T, HasDerivWithinAt x (F (x t) + b t) (Icc 0 T) t) → 0 ≤ β → (∀ t ∈ Icc 0 T, ‖b t‖ ≤ p * β) →
        ‖x 0‖ ≤ δ → β ≤ δ → ∀ t ∈ Icc 0 T, ‖x t‖ ≤ K * (Real.exp (-(ν * t)) * ‖x 0‖ + β))
    (hpair : ∀ (x y b d : ℝ → E) (T γ : ℝ), (∀ t ∈ Icc 0 T, HasDerivWithinAt x (F (x t) + b t) (Icc 0 T) t) →
        (∀ t ∈ Icc 0 T, HasDerivWithinAt y (F (y t) + d t) (Icc 0 T) t) → (∀ t ∈ Icc 0 T, ‖b t‖ ≤ p * δ) → (∀ t ∈ Icc 0 T, ‖d t‖ ≤ p * δ) →
        0 ≤ γ → (∀ t ∈ Icc 0 T, ‖b t - d t‖ ≤ p * γ) → ‖x 0‖ ≤ δ → ‖y 0‖ ≤ δ →
        ∀ t ∈ Icc 0 T, ‖x t - y t‖ ≤ K * (Real.exp (-(ν * t)) * ‖x 0 - y 0‖ + γ))
    (hp : 0 ≤ p) {δ' : ℝ} (hδ' : 0 < δ')
    (hex : ∀ b : ℝ → E, Continuous b → (∀ t, ‖b t‖ ≤ p * δ') → ∀ v : E, ‖v‖ ≤ δ' → ∃ x : ℝ → E, x 0 = v ∧
      ∀ T, ∀ t ∈ Icc 0 T, HasDerivWithinAt x (F (x t) + b t) (Icc 0 T) t) :
    ∃ r : ℝ, 0 < r ∧ r ≤ δ ∧ K * r ≤ δ ∧ ∀ (b : ℝ → E) (τ β : ℝ), Continuous b → 0 < τ → (∀ t, b (t + τ) = b t) → 0 ≤ β → β ≤ r →
      (∀ t, ‖b t‖ ≤ p * β) → ∃ x : ℝ → E, (∀ T, ∀ t ∈ Icc 0 T, HasDerivWithinAt x (F (x t) + b t) (Icc 0 T) t) ∧
        (∀ t, 0 ≤ t → x (t + τ) = x t) ∧ ∀ t, 0 ≤ t → ‖x t‖ ≤ K * β := by
  have hm0 : 0 < min δ δ' := lt_min hδ hδ'
  refine ⟨min (min δ δ') (min δ δ' / K), lt_min hm0 (by positivity), (min_le_left _ _).trans (min_le_left _ _), ?_, ?_⟩
  · have h1 := mul_le_mul_of_nonneg_left (min_le_right (min δ δ') (min δ δ' / K)) hK.le
    rw [mul_div_cancel₀ _ hK.ne'] at h1
    exact h1.trans (min_le_left _ _)
  intro b τ β hbc hτ hper hβ hβr hb
  have hβδ : β ≤ δ := hβr.trans ((min_le_left _ _).trans (min_le_left _ _))
  have hβδ' : β ≤ δ' := hβr.trans ((min_le_left _ _).trans (min_le_right _ _))
  have hKβ : K * β ≤ min δ δ' := by
    have h1 := mul_le_mul_of_nonneg_left (hβr.trans (min_le_right _ _)) hK.le
    rwa [mul_div_cancel₀ _ hK.ne'] at h1
  have hbδ : ∀ t, ‖b t‖ ≤ p * δ := fun t => (hb t).trans (mul_le_mul_of_nonneg_left hβδ hp)
  have hbδ' : ∀ t, ‖b t‖ ≤ p * δ' := fun t => (hb t).trans (mul_le_mul_of_nonneg_left hβδ' hp)
  have hperk : ∀ (k : ℕ) t, b (t + k * τ) = b t := by
    intro k
    induction k with
    | zero => intro t; simp
    | succ k ih =>
      intro t
      rw [show t + ((k + 1 : ℕ) : ℝ) * τ = t + k * τ + τ by push_cast; ring, hper, ih]
  have hshift : ∀ (x : ℝ → E) (k : ℕ), (∀ T, ∀ t ∈ Icc 0 T, HasDerivWithinAt x (F (x t) + b t) (Icc 0 T) t) →
      ∀ T, ∀ t ∈ Icc 0 T, HasDerivWithinAt (fun t => x (t + k * τ)) (F (x (t + k * τ)) + b t) (Icc 0 T) t := by
    intro x k hx T t ht
    have := run_shift (s := k * τ) (by positivity) hx T t ht
    rwa [hperk] at this
  have hforget : ∀ x y : ℝ → E, (∀ T, ∀ t ∈ Icc 0 T, HasDerivWithinAt x (F (x t) + b t) (Icc 0 T) t) →
      (∀ T, ∀ t ∈ Icc 0 T, HasDerivWithinAt y (F (y t) + b t) (Icc 0 T) t) → ‖x 0‖ ≤ δ → ‖y 0‖ ≤ δ →
      ∀ t, 0 ≤ t → ‖x t - y t‖ ≤ K * (Real.exp (-(ν * t)) * ‖x 0 - y 0‖) := by
    intro x y hx hy hx0 hy0 t ht
    have := hpair x y b b t 0 (hx t) (hy t) (fun s _ => hbδ s) (fun s _ => hbδ s) le_rfl (fun s _ => by simp) hx0 hy0 t ⟨ht, le_rfl⟩
    rwa [add_zero] at this
  obtain ⟨x, hx0, hx⟩ := hex b hbc hbδ' 0 (by simpa using hδ'.le)
  have hxb : ∀ t, 0 ≤ t → ‖x t‖ ≤ K * β := by
    intro t ht
    have := hstay x b t β (hx t) hβ (fun s _ => hb s) (by rw [hx0, norm_zero]; exact hδ.le) hβδ t ⟨ht, le_rfl⟩
    simpa [hx0] using this
  have hxδ : ∀ t, 0 ≤ t → ‖x t‖ ≤ δ := fun t ht => (hxb t ht).trans (hKβ.trans (min_le_left _ _))
  -- the states after whole periods converge
  have hstep : ∀ k : ℕ, dist (x (k * τ)) (x ((k + 1 : ℕ) * τ)) ≤ K * (K * β) * Real.exp (-(ν * τ)) ^ k := by
    intro k
    have h1 := hforget x (fun t => x (t + (1 : ℕ) * τ)) hx (hshift x 1 hx) (hxδ 0 le_rfl) (by beta_reduce; exact hxδ _ (by positivity)) (k * τ)
      (by positivity)
    beta_reduce at h1
    rw [dist_eq_norm, show ((k + 1 : ℕ) : ℝ) * τ = k * τ + (1 : ℕ) * τ by push_cast; ring]
    refine h1.trans ?_
    have h2 : ‖x 0 - x (0 + (1 : ℕ) * τ)‖ ≤ K * β := by
      rw [hx0, zero_sub, norm_neg]
      exact hxb _ (by positivity)
    have h3 : Real.exp (-(ν * (k * τ))) = Real.exp (-(ν * τ)) ^ k := by
      rw [← Real.exp_nat_mul]
      congr 1
      ring
    rw [h3, mul_assoc, mul_comm (K * β)]
    exact mul_le_mul_of_nonneg_left (mul_le_mul_of_nonneg_left h2 (by positivity)) hK.le
  have hr1 : Real.exp (-(ν * τ)) < 1 := Real.exp_lt_one_iff.2 (by have := mul_pos hν hτ; linarith)
  have : CompleteSpace E := FiniteDimensional.complete ℝ E
  obtain ⟨v, hv⟩ := cauchySeq_tendsto_of_complete (cauchySeq_of_le_geometric _ _ hr1 hstep)
  have hvb : ‖v‖ ≤ K * β := le_of_tendsto hv.norm (Eventually.of_forall fun k => hxb _ (by positivity))
  have hvδ : ‖v‖ ≤ δ := hvb.trans (hKβ.trans (min_le_left _ _))
  obtain ⟨y, hy0, hy⟩ := hex b hbc hbδ' v (hvb.trans (hKβ.trans (min_le_right _ _)))
  have hy0δ : ‖y 0‖ ≤ δ := by rw [hy0]; exact hvδ
  -- the run from the limit returns to it
  have hret : y τ = v := by
    have h1 : Tendsto (fun k : ℕ => x ((k + 1 : ℕ) * τ)) atTop (𝓝 v) := hv.comp (tendsto_add_atTop_nat 1)
    have h2 : Tendsto (fun k : ℕ => x ((k + 1 : ℕ) * τ)) atTop (𝓝 (y τ)) := by
      rw [tendsto_iff_dist_tendsto_zero]
      have h3 : Tendsto (fun k : ℕ => K * (Real.exp (-(ν * τ)) * ‖x (k * τ) - v‖)) atTop (𝓝 0) := by
        have h4 := ((tendsto_iff_norm_sub_tendsto_zero.1 hv).const_mul (Real.exp (-(ν * τ)))).const_mul K
        simpa using h4
      refine squeeze_zero (fun _ => dist_nonneg) (fun k => ?_) h3
      have h5 := hforget (fun t => x (t + k * τ)) y (hshift x k hx) hy (by beta_reduce; exact hxδ _ (by positivity)) hy0δ τ hτ.le
      beta_reduce at h5
      rw [zero_add, hy0] at h5
      rw [dist_eq_norm, show ((k + 1 : ℕ) : ℝ) * τ = τ + k * τ by push_cast; ring]
      exact h5
    exact tendsto_nhds_unique h2 h1
  have hyper : ∀ t, 0 ≤ t → y (t + τ) = y t := by
    intro t ht
    have h1 := hforget (fun t => y (t + (1 : ℕ) * τ)) y (hshift y 1 hy) hy (by
      beta_reduce
      rw [Nat.cast_one, one_mul, zero_add, hret]
      exact hvδ) hy0δ t ht
    beta_reduce at h1
    rw [Nat.cast_one, one_mul, zero_add, hret, hy0, sub_self, norm_zero, mul_zero, mul_zero] at h1
    exact sub_eq_zero.1 (norm_le_zero_iff.1 h1)
  have hyperk : ∀ (k : ℕ) t, 0 ≤ t → y (t + k * τ) = y t := by
    intro k
    induction k with
    | zero => intro t _; simp
    | succ k ih =>
      intro t ht
      rw [show t + ((k + 1 : ℕ) : ℝ) * τ = t + k * τ + τ by push_cast; ring, hyper _ (by positivity), ih t ht]
  refine ⟨y, hy, hyper, fun t ht => ?_⟩
  have hlim : Tendsto (fun k : ℕ => K * (Real.exp (-(ν * τ)) ^ k * ‖v‖ + β)) atTop (𝓝 (K * β)) := by
    have h1 := (((tendsto_pow_atTop_nhds_zero_of_lt_one (Real.exp_pos _).le hr1).mul_const ‖v‖).add_const β).const_mul K
    simpa using h1
  refine ge_of_tendsto hlim (Eventually.of_forall fun k => ?_)
  have h1 := hstay y b (t + k * τ) β (hy _) hβ (fun s _ => hb s) hy0δ hβδ (t + k * τ) ⟨by positivity, le_rfl⟩
  rw [hyperk k t ht, hy0] at h1
  refine h1.trans (mul_le_mul_of_nonneg_left (add_le_add (mul_le_mul_of_nonneg_right ?_ (norm_nonneg _)) le_rfl) hK.le)
  rw [← Real.exp_nat_mul]
  refine Real.exp_le_exp.2 ?_
  have := mul_nonneg hν.le ht
  nlinarith

end

section
variable {X : Type} [NormedAddCommGroup X] [NormedSpace ℝ X] {n z : ℕ} {L : MPt X n →L[ℝ] MPt X n} {κ : ℝ} {A : Fin (z + 1) → Fin (z + 1) → ℝ}

/-- Near exhaustion the rates of two columns differ like those of the linear part. -/
theorem mbed_small_pair {F : MPt X n → MPt X n} (hF : HasStrictFDerivAt F L 0) : ∀ η > 0, ∃ δ > 0, ∀ u v : MBed X n z, ‖u‖ ≤ δ → ‖v‖ ≤ δ →
    ‖mbedRhs F κ A u - mbedRhs F κ A v - mbedCL L κ A (u - v)‖ ≤ η * ‖u - v‖ := by
  intro η hη
  have ho := (hasStrictFDerivAt_iff_isLittleO.1 hF).def hη
  obtain ⟨d, hd, hs⟩ := Metric.eventually_nhds_iff.1 ho
  have hρ : ∀ a c : MPt X n, ‖a‖ ≤ d / 2 → ‖c‖ ≤ d / 2 → ‖F a - F c - L (a - c)‖ ≤ η * ‖a - c‖ := by
    intro a c ha hc
    exact hs (y := (a, c)) (by
      rw [Prod.dist_eq, dist_zero_right, dist_zero_right]
      exact max_lt (by linarith) (by linarith))
  refine ⟨d / 2, half_pos hd, fun u v hu hv => ?_⟩
  have hη' : 0 ≤ η * ‖u - v‖ := by positivity
  have hb : ∀ a c : MPt X n, ‖a‖ ≤ ‖u‖ → ‖c‖ ≤ ‖v‖ → ‖a - c‖ ≤ ‖u - v‖ → ‖F a - F c - L (a - c)‖ ≤ η * ‖u - v‖ := fun a c ha hc hac =>
    (hρ a c (ha.trans hu) (hc.trans hv)).trans (mul_le_mul_of_nonneg_left hac hη.le)
  refine norm_prod_le_iff.2 ⟨?_, (pi_norm_le_iff_of_nonneg hη').2 fun w => ?_⟩
  · have e1 : (mbedRhs F κ A u - mbedRhs F κ A v - mbedCL L κ A (u - v)).1 = (F (u.1, 0) - F (v.1, 0) - L ((u.1, 0) - (v.1, 0))).1 := by
      show (F (u.1, 0)).1 - (F (v.1, 0)).1 - (L (u.1 - v.1, 0)).1 = _
      rw [Prod.fst_sub, Prod.fst_sub, Prod.mk_sub_mk, sub_zero]
    rw [e1]
    refine (norm_fst_le _).trans (hb _ _ ?_ ?_ ?_)
    · exact norm_prod_le_iff.2 ⟨norm_fst_le u, by simp⟩
    · exact norm_prod_le_iff.2 ⟨norm_fst_le v, by simp⟩
    · rw [Prod.mk_sub_mk, sub_zero]
      exact norm_prod_le_iff.2 ⟨norm_fst_le (u - v), by simp⟩
  · have e1 : (mbedRhs F κ A u - mbedRhs F κ A v - mbedCL L κ A (u - v)).2 w = F (u.2 w) - F (v.2 w) - L (u.2 w - v.2 w) := by
      show (F (u.2 w) - ((0 : X), mflow κ A u.2 w)) - (F (v.2 w) - ((0 : X), mflow κ A v.2 w)) - mcolCL L κ A (u.2 - v.2) w = _
      rw [map_sub, Pi.sub_apply, mcolCL_apply, mcolCL_apply, map_sub]
      abel
    rw [e1]
    exact hb _ _ ((norm_le_pi_norm u.2 w).trans (norm_snd_le u)) ((norm_le_pi_norm v.2 w).trans (norm_snd_le v))
      ((norm_le_pi_norm (u.2 - v.2) w).trans (norm_snd_le (u - v)))

variable [FiniteDimensional ℝ X] {N : ℕ} {e : MPt X n →L[ℝ] MPt X n →L[ℝ] ℝ} {h : X →L[ℝ] (Fin n → ℝ)}
  {ℓ : (Fin n → ℝ) →L[ℝ] (Fin N → ℝ)} {lam : Fin N → ℝ} {G : Fin z → Fin z → ℝ}

/-- All this for columns near exhaustion. -/
theorem mbed_step {F : MPt X n → MPt X n} (he : PtEnergy L e h ℓ lam) (hA : Spec.MovesAll A) (hG : AxialForm A G) (hκ : 0 < κ)
    (hs : ContDiffAt ℝ 1 F 0) (hF : HasFDerivAt F L 0) (h0 : F 0 = 0) {p : ℝ} (hp : 0 ≤ p) :
    ∃ δ K ν r : ℝ, 0 < δ ∧ 0 < K ∧ 0 < ν ∧ 0 < r ∧ r ≤ δ ∧ K * r ≤ δ ∧
      (∀ (x y b d : ℝ → MBed X n z) (T γ : ℝ), (∀ t ∈ Icc 0 T, HasDerivWithinAt x (mbedRhs F κ A (x t) + b t) (Icc 0 T) t) →
        (∀ t ∈ Icc 0 T, HasDerivWithinAt y (mbedRhs F κ A (y t) + d t) (Icc 0 T) t) → (∀ t ∈ Icc 0 T, ‖b t‖ ≤ p * δ) →
        (∀ t ∈ Icc 0 T, ‖d t‖ ≤ p * δ) → 0 ≤ γ → (∀ t ∈ Icc 0 T, ‖b t - d t‖ ≤ p * γ) → ‖x 0‖ ≤ δ → ‖y 0‖ ≤ δ →
        ∀ t ∈ Icc 0 T, ‖x t - y t‖ ≤ K * (Real.exp (-(ν * t)) * ‖x 0 - y 0‖ + γ)) ∧
      ∀ (b : ℝ → MBed X n z) (τ β : ℝ), Continuous b → 0 < τ → (∀ t, b (t + τ) = b t) → 0 ≤ β → β ≤ r →
      (∀ t, ‖b t‖ ≤ p * β) → ∃ x : ℝ → MBed X n z, (∀ T, ∀ t ∈ Icc 0 T, HasDerivWithinAt x (mbedRhs F κ A (x t) + b t) (Icc 0 T) t) ∧
        (∀ t, 0 ≤ t → x (t + τ) = x t) ∧ ∀ t, 0 ≤ t → ‖x t‖ ≤ K * β := by
  obtain ⟨C, ω, hC, hω, hM⟩ := mbed_settle (z := z) he hA hG hκ
  have hz : mbedRhs F κ A (0 : MBed X n z) = 0 := by
    obtain ⟨δ, hδ, h1⟩ := mbed_small (z := z) (κ := κ) (A := A) hF h0 1 one_pos
    have := h1 0 (by simpa using hδ.le)
    simpa using this
  obtain ⟨δ, K, ν, hδ, hK, hν, h1, h2⟩ := near_pair hω hC hM hz
    (mbed_small_pair (κ := κ) (A := A) (hs.hasStrictFDerivAt' hF one_ne_zero)) hp
  obtain ⟨δ', hδ', hx⟩ := mbed_run_in (z := z) he hA hG hκ hs hF h0 hp
  obtain ⟨r, hr, hr1, hr2, hcyc⟩ := near_cycle hδ hK hν h1 h2 hp hδ' (fun b hb hbδ v hv => by
    obtain ⟨x, hx0, hxd, -⟩ := hx b hb hbδ v hv
    exact ⟨x, hx0, hxd⟩)
  exact ⟨δ, K, ν, r, hδ, hK, hν, hr, hr1, hr2, h2, hcyc⟩

end
end WTM
