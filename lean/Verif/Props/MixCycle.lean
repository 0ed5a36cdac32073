import Verif.Lemmas.NearStep
import Verif.Props.MixWaver

/-! Property C275: near exhaustion carbon columns with compounds in competition forget their starts, follow like influents alike, and fall into
step with influents that recur. -/
set_option autoImplicit false
namespace WTM
open BigOperators Set Topology Filter

section
variable {n r z : ℕ}

variable {D : GacDim n r z} {jac : Fin r → ℝ} {c fo fa q : Fin n → ℝ}

/-- Specification: all loadings and all waters below the inlet of two columns within `ε` of each other. -/
def Spec.MixNear (ε : ℝ) (u v : GacState n r z) : Prop :=
  (∀ i (k : Fin (r + 1)) w, |u i k.castSucc w - v i k.castSucc w| ≤ ε) ∧ ∀ i w, w ≠ 0 → |u i (Fin.last (r + 1)) w - v i (Fin.last (r + 1)) w| ≤ ε

theorem mixExc_near {ε : ℝ} (hε : 0 ≤ ε) {u v : GacState n r z} : ‖mixExc c q u - mixExc c q v‖ ≤ ε ↔ Spec.MixNear ε u v := by
  have e : mixExc c q u - mixExc c q v = mixExc 0 0 (u - v) := by
    refine Prod.ext (funext fun i => funext fun k => ?_) (funext fun w => Prod.ext (funext fun i => funext fun k => ?_) (funext fun i => ?_)) <;>
      simp [mixExc]
  rw [e, mixExc_norm hε]
  unfold Spec.MixWithin Spec.MixNear
  simp

/-- All parts with the same constants. -/
theorem mix_step [NeZero n] (h : Spec.MixSetting D jac c fo fa q) : ∃ δ C ω ρ : ℝ, 0 < δ ∧ 0 < C ∧ 0 < ω ∧ 0 < ρ ∧ ρ ≤ δ ∧
    (∀ (ε γ T : ℝ) (s s' : ℝ → Fin n → ℝ) (y y' : ℝ → GacState n r z), Spec.Solves gacComp (fun t u => gacRhs D (s t) fo fa u) 0 T y →
      Spec.Solves gacComp (fun t u => gacRhs D (s' t) fo fa u) 0 T y' → (∀ t ∈ Icc 0 T, ∀ i, |s t i - c i| ≤ δ) →
      (∀ t ∈ Icc 0 T, ∀ i, |s' t i - c i| ≤ δ) → (∀ t ∈ Icc 0 T, ∀ i, |s t i - s' t i| ≤ γ) → Spec.MixWithin c q δ (y 0) →
      Spec.MixWithin c q δ (y' 0) → Spec.MixNear ε (y 0) (y' 0) →
      ∀ t ∈ Icc 0 T, Spec.MixNear (C * (Real.exp (-(ω * t)) * ε + γ)) (y t) (y' t)) ∧
    ∀ (s : ℝ → Fin n → ℝ) (τ β : ℝ), Continuous s → 0 < τ → (∀ t, s (t + τ) = s t) → (∀ t i, |s t i - c i| ≤ β) → β ≤ ρ →
      ∃ y : ℝ → GacState n r z, (∀ T, Spec.Solves gacComp (fun t u => gacRhs D (s t) fo fa u) 0 T y) ∧ (∀ t, 0 ≤ t → y (t + τ) = y t) ∧
        (∀ t, 0 ≤ t → Spec.MixWithin c q (C * β) (y t)) ∧ Spec.MixWithin c q δ (y 0) := by
  obtain ⟨L, e, H, ℓ, lam, he, hL⟩ := mix_energy h
  obtain ⟨G, hG⟩ := axial_form h.axial
  set P := (mbedPush (fun i => D.stdv i * D.dgI i) D.dg1 D.az D.wr).toContinuousLinearMap with hP
  obtain ⟨δ, C, ω, ρ, hδ, hC, hω, hρ, hρδ, hCρ, h1, h2⟩ := mbed_step (z := z) he (axial_moves h.axial) hG h.flow
    (ptRhs_smooth (mix_smooth h)) hL (ptRhs_zero (mix_zero h)) (norm_nonneg P)
  have hpush : ∀ (β : ℝ) (s s' : Fin n → ℝ), 0 ≤ β → (∀ i, |s i - s' i| ≤ β) → ‖P (s - s')‖ ≤ ‖P‖ * β := fun β s s' hβ hs =>
    (P.le_opNorm _).trans (mul_le_mul_of_nonneg_left ((pi_norm_le_iff_of_nonneg hβ).2 fun i => hs i) (norm_nonneg P))
  refine ⟨δ, C, ω, ρ, hδ, hC, hω, hρ, hρδ, fun ε γ T s s' y y' hy hy' hs hs' hss h0 h0' hn t ht => ?_, fun s τ β hsc hτ hper hs hβ => ?_⟩
  · have hε0 : 0 ≤ ε := (abs_nonneg _).trans (hn.1 0 0 0)
    have hγ0 : 0 ≤ γ := (abs_nonneg _).trans (hss t ht 0)
    have := h1 (fun t => mixExc c q (y t)) (fun t => mixExc c q (y' t)) (fun t => P (s t - c)) (fun t => P (s' t - c)) T γ (mix_deriv_in h hy)
      (mix_deriv_in h hy') (fun t ht => hpush δ _ _ hδ.le (hs t ht)) (fun t ht => hpush δ _ _ hδ.le (hs' t ht)) hγ0 (fun t ht => by
        rw [← map_sub, sub_sub_sub_cancel_right]
        exact hpush γ _ _ hγ0 (hss t ht)) ((mixExc_norm hδ.le).2 h0) ((mixExc_norm hδ.le).2 h0') t ht
    refine (mixExc_near (c := c) (q := q) (by positivity)).1 (this.trans (mul_le_mul_of_nonneg_left (add_le_add ?_ le_rfl) hC.le))
    exact mul_le_mul_of_nonneg_left ((mixExc_near hε0).2 hn) (Real.exp_pos _).le
  · have hβ0 : 0 ≤ β := (abs_nonneg _).trans (hs 0 0)
    obtain ⟨x, hx, hxp, hxb⟩ := h2 (fun t => P (s t - c)) τ β (P.continuous.comp (hsc.sub continuous_const)) hτ
      (fun t => by beta_reduce; rw [hper]) hβ0 hβ (fun t => hpush β _ _ hβ0 (hs t))
    have hw : ∀ t, 0 ≤ t → ∀ a, C * β ≤ a → Spec.MixWithin c q a (mixState c q c (x t)) := fun t ht a ha =>
      (mixExc_norm ((mul_nonneg hC.le hβ0).trans ha)).1 (by rw [mixExc_state]; exact (hxb t ht).trans ha)
    refine ⟨fun t => mixState c q c (x t), fun T => mix_solves_in h c (hx T), fun t ht => ?_, fun t ht => hw t ht _ le_rfl,
      hw 0 le_rfl _ ((mul_le_mul_of_nonneg_left hβ hC.le).trans hCρ)⟩
    beta_reduce
    rw [hxp t ht]

/-- C275. Two columns that start near exhaustion by `c`, within `ε` of each other, under influents near `c` that stay within `γ` of each other,
are within `C (exp (-ωt) ε + γ)` of each other in all waters and loadings. -/
theorem c275_forget [NeZero n] (h : Spec.MixSetting D jac c fo fa q) : ∃ δ C ω : ℝ, 0 < δ ∧ 0 < C ∧ 0 < ω ∧
    ∀ (ε γ T : ℝ) (s s' : ℝ → Fin n → ℝ) (y y' : ℝ → GacState n r z), Spec.Solves gacComp (fun t u => gacRhs D (s t) fo fa u) 0 T y →
      Spec.Solves gacComp (fun t u => gacRhs D (s' t) fo fa u) 0 T y' → (∀ t ∈ Icc 0 T, ∀ i, |s t i - c i| ≤ δ) →
      (∀ t ∈ Icc 0 T, ∀ i, |s' t i - c i| ≤ δ) → (∀ t ∈ Icc 0 T, ∀ i, |s t i - s' t i| ≤ γ) → Spec.MixWithin c q δ (y 0) →
      Spec.MixWithin c q δ (y' 0) → Spec.MixNear ε (y 0) (y' 0) →
      ∀ t ∈ Icc 0 T, Spec.MixNear (C * (Real.exp (-(ω * t)) * ε + γ)) (y t) (y' t) := by
  obtain ⟨δ, C, ω, -, hδ, hC, hω, -, -, h1, -⟩ := mix_step h
  exact ⟨δ, C, ω, hδ, hC, hω, h1⟩

/-- C275. Under influents that vary continuously within `β` of `c` and recur with period `τ` there is a run that recurs with the same period,
within `C β` of exhaustion. Every run that starts near exhaustion comes to it exponentially, so it is the only one near exhaustion. -/
theorem c275_cycle [NeZero n] (h : Spec.MixSetting D jac c fo fa q) : ∃ δ C ω ρ : ℝ, 0 < δ ∧ 0 < C ∧ 0 < ω ∧ 0 < ρ ∧
    ∀ (s : ℝ → Fin n → ℝ) (τ β : ℝ), Continuous s → 0 < τ → (∀ t, s (t + τ) = s t) → (∀ t i, |s t i - c i| ≤ β) → β ≤ ρ →
      ∃ y : ℝ → GacState n r z, (∀ T, Spec.Solves gacComp (fun t u => gacRhs D (s t) fo fa u) 0 T y) ∧ (∀ t, 0 ≤ t → y (t + τ) = y t) ∧
        (∀ t, 0 ≤ t → Spec.MixWithin c q (C * β) (y t)) ∧ Spec.MixWithin c q δ (y 0) ∧
        (∀ (ε : ℝ) (x : ℝ → GacState n r z), (∀ T, Spec.Solves gacComp (fun t u => gacRhs D (s t) fo fa u) 0 T x) →
          Spec.MixWithin c q δ (x 0) → Spec.MixNear ε (x 0) (y 0) → ∀ t, 0 ≤ t → Spec.MixNear (C * (Real.exp (-(ω * t)) * ε)) (x t) (y t)) ∧
        ∀ x : ℝ → GacState n r z, (∀ T, Spec.Solves gacComp (fun t u => gacRhs D (s t) fo fa u) 0 T x) → Spec.MixWithin c q δ (x 0) →
          (∀ t, 0 ≤ t → x (t + τ) = x t) → ∀ t, 0 ≤ t → Spec.MixNear 0 (x t) (y t) := by
  obtain ⟨δ, C, ω, ρ, hδ, hC, hω, hρ, hρδ, h1, h2⟩ := mix_step h
  refine ⟨δ, C, ω, ρ, hδ, hC, hω, hρ, fun s τ β hsc hτ hper hs hβ => ?_⟩
  obtain ⟨y, hy, hyp, hyb, hy0⟩ := h2 s τ β hsc hτ hper hs hβ
  have hsδ : ∀ t i, |s t i - c i| ≤ δ := fun t i => (hs t i).trans (hβ.trans hρδ)
  have hcome : ∀ (ε : ℝ) (x : ℝ → GacState n r z), (∀ T, Spec.Solves gacComp (fun t u => gacRhs D (s t) fo fa u) 0 T x) →
      Spec.MixWithin c q δ (x 0) → Spec.MixNear ε (x 0) (y 0) → ∀ t, 0 ≤ t → Spec.MixNear (C * (Real.exp (-(ω * t)) * ε)) (x t) (y t) := by
    intro ε x hx hx0 hn t ht
    have := h1 ε 0 t s s x y (hx t) (hy t) (fun t _ => hsδ t) (fun t _ => hsδ t) (fun t _ i => by simp) hx0 hy0 hn t ⟨ht, le_rfl⟩
    rwa [add_zero] at this
  refine ⟨y, hy, hyp, hyb, hy0, hcome, fun x hx hx0 hxp t ht => ?_⟩
  have hn : Spec.MixNear (2 * δ) (x 0) (y 0) := by
    have key : ∀ a b e : ℝ, |a - e| ≤ δ → |b - e| ≤ δ → |a - b| ≤ 2 * δ := fun a b e ha hb => by
      rw [abs_le] at ha hb ⊢
      constructor <;> linarith [ha.1, ha.2, hb.1, hb.2]
    exact ⟨fun i k w => key _ _ _ (hx0.1 i k w) (hy0.1 i k w), fun i w hw => key _ _ _ (hx0.2 i w hw) (hy0.2 i w hw)⟩
  have hper' : ∀ (v : ℝ → GacState n r z), (∀ t, 0 ≤ t → v (t + τ) = v t) → ∀ (k : ℕ), v (t + k * τ) = v t := by
    intro v hv k
    induction k with
    | zero => simp
    | succ k ih => rw [show t + ((k + 1 : ℕ) : ℝ) * τ = t + k * τ + τ by push_cast; ring, hv _ (by positivity), ih]
  have hk : ∀ k : ℕ, Spec.MixNear (C * (Real.exp (-(ω * (t + k * τ))) * (2 * δ))) (x t) (y t) := fun k => by
    have := hcome _ x hx hx0 hn (t + k * τ) (by positivity)
    rwa [hper' x hxp, hper' y hyp] at this
  have hlim : Tendsto (fun k : ℕ => C * (Real.exp (-(ω * (t + k * τ))) * (2 * δ))) atTop (𝓝 0) := by
    have h3 : Tendsto (fun k : ℕ => ω * (t + k * τ)) atTop atTop :=
      (tendsto_atTop_add_const_left _ t (tendsto_natCast_atTop_atTop.atTop_mul_const hτ)).const_mul_atTop hω
    have h4 := ((Real.tendsto_exp_neg_atTop_nhds_zero.comp h3).mul_const (2 * δ)).const_mul C
    simpa using h4
  exact ⟨fun i k w => ge_of_tendsto' hlim fun j => (hk j).1 i k w, fun i w hw => ge_of_tendsto' hlim fun j => (hk j).2 i w hw⟩

/-- Columns as in C275 exist for any numbers of nodes, with two compounds, and influents that swing for ever: there is a recurring run, and a
run that starts exhausted comes to it. -/
example (r z : ℕ) (A : Fin (z + 1) → Fin (z + 1) → ℝ) (hA : Spec.AxialGrid z A) : ∃ (D : GacDim 2 r z) (c q : Fin 2 → ℝ) (β : ℝ)
    (y x : ℝ → GacState 2 r z), 0 < β ∧ D.az = A ∧
    (∀ T, Spec.Solves gacComp (fun t u => gacRhs D (fun i => c i + β * Real.sin t) 1 1 u) 0 T y) ∧
    (∀ T, Spec.Solves gacComp (fun t u => gacRhs D (fun i => c i + β * Real.sin t) 1 1 u) 0 T x) ∧
    (∀ t, 0 ≤ t → y (t + 2 * Real.pi) = y t) ∧ Spec.MixWithin c q 0 (x 0) ∧
    Tendsto (fun t => x t 0 0 0 - y t 0 0 0) atTop (𝓝 0) := by
  obtain ⟨D, jac, hD, -, -, -, hz⟩ := mix_setting_ex r z A hA
  set c : Fin 2 → ℝ := ![9 / 2, 81 / 32] with hc
  obtain ⟨δ', hδ', hr⟩ := c273_run hD
  obtain ⟨δ, C, ω, ρ, hδ, hC, hω, hρ, hx⟩ := c275_cycle hD
  set β := min ρ δ' with hβ
  have hβ0 : 0 < β := lt_min hρ hδ'
  have hsin : ∀ t i, |c i + β * Real.sin t - c i| ≤ β := fun t i => by
    rw [add_sub_cancel_left, abs_mul, abs_of_pos hβ0]
    exact mul_le_of_le_one_right hβ0.le (Real.abs_sin_le_one t)
  have hu : ∀ ε : ℝ, 0 ≤ ε → Spec.MixWithin (r := r) (z := z) c 1 ε (fun i a _ => if a = Fin.last (r + 1) then c i else 1) := by
    intro ε hε
    refine ⟨fun i k w => ?_, fun i w _ => ?_⟩
    · beta_reduce
      rw [if_neg (Fin.castSucc_lt_last k).ne]
      simpa using hε
    · beta_reduce
      rw [if_pos rfl, sub_self, abs_zero]
      exact hε
  obtain ⟨y, hy, hyp, -, hy0, hcome, -⟩ := hx (fun t i => c i + β * Real.sin t) (2 * Real.pi) β (by fun_prop) Real.two_pi_pos
    (fun t => by beta_reduce; rw [Real.sin_add_two_pi]) hsin (min_le_left _ _)
  obtain ⟨x, hx0, hxs, -⟩ := hr (fun t i => c i + β * Real.sin t) (by fun_prop) (fun t i => (hsin t i).trans (min_le_right _ _)) _ (hu δ' hδ'.le)
  refine ⟨D, c, 1, β, y, x, hβ0, hz, hy, hxs, hyp, by rw [hx0]; exact hu 0 le_rfl, ?_⟩
  have hn : Spec.MixNear δ (x 0) (y 0) := by
    have h1 := hu 0 le_rfl
    rw [← hx0] at h1
    have key : ∀ a b e : ℝ, |a - e| ≤ 0 → |b - e| ≤ δ → |a - b| ≤ δ := fun a b e ha hb => by
      have : a = e := by have := abs_nonpos_iff.1 ha; linarith
      rw [this, abs_sub_comm]
      exact hb
    exact ⟨fun i k w => key _ _ _ (h1.1 i k w) (hy0.1 i k w), fun i w hw => key _ _ _ (h1.2 i w hw) (hy0.2 i w hw)⟩
  have h1 := fun t ht => (hcome δ x hxs (by rw [hx0]; exact hu δ hδ.le) hn t ht).1 0 0 0
  have hlim : Tendsto (fun t : ℝ => C * (Real.exp (-(ω * t)) * δ)) atTop (𝓝 0) := by
    have h3 : Tendsto (fun t : ℝ => ω * t) atTop atTop := tendsto_id.const_mul_atTop hω
    have h4 := ((Real.tendsto_exp_neg_atTop_nhds_zero.comp h3).mul_const δ).const_mul C
    simpa using h4
  refine squeeze_zero_norm' ?_ hlim
  filter_upwards [eventually_ge_atTop 0] with t ht
  exact h1 t ht

end
end WTM
