import Verif.Lemmas.NearStep
import Verif.Props.IonWaver

/-! Property C276: near exhaustion ion exchange columns with any number of ions of mild mobilities forget their starts, follow like influents
alike, and fall into step with influents that recur. -/
set_option autoImplicit false
namespace WTM
open BigOperators Set Topology Filter

section
variable {r p z : ℕ} {m : ColModel} {P : ColParams r p z} {jac : Fin r → ℝ} {tH : ℝ} {cin q : Fin (p + 1) → ℝ} {Q : ℝ}

theorem redExc_sub (u v : ColState r p z) : redExc cin q u - redExc cin q v = redExc 0 0 (u - v) := by
  refine Prod.ext (funext fun i => funext fun k => ?_) (funext fun w => Prod.ext (funext fun i => funext fun k => ?_) (funext fun i => ?_)) <;>
    simp [redExc]

theorem redExc_near {ε : ℝ} (hε : 0 ≤ ε) {u v : ColState r p z} (h : Spec.ColNear ε u v) : ‖redExc cin q u - redExc cin q v‖ ≤ ε := by
  rw [redExc_sub]
  refine redExc_norm hε ⟨fun i w hw => ?_, fun k i w => ?_⟩
  · simpa using h.1 i w hw
  · simpa using h.2 k i w

theorem near_redExc {CT : ℝ} {u v : ColState r p z} (hu : Spec.Totals CT Q u) (hv : Spec.Totals CT Q v) {ε : ℝ} (hε : 0 ≤ ε)
    (h : ‖redExc cin q u - redExc cin q v‖ ≤ ε) : Spec.ColNear ((p + 1) * ε) u v := by
  rw [redExc_sub] at h
  have hT : Spec.Totals (∑ i, (0 : Fin (p + 1) → ℝ) i) 0 (u - v) := by
    refine ⟨fun w hw => ?_, fun k w => ?_⟩
    · simp [Finset.sum_sub_distrib, hu.water w hw, hv.water w hw]
    · simp [Finset.sum_sub_distrib, hu.beads k w, hv.beads k w]
  have := redExc_within (by simp) hT hε h
  refine ⟨fun i w hw => ?_, fun k i w => ?_⟩
  · simpa using this.1 i w hw
  · simpa using this.2 k i w

/-- All parts with the same constants. -/
theorem ion_step (h : Spec.MildColumn m P jac tH cin q) (hc : ∀ i, 0 < cin i) (hq : Spec.SpentLoadings m P cin Q q) :
    ∃ δ C ω ρ : ℝ, 0 < δ ∧ 0 < C ∧ 0 < ω ∧ 0 < ρ ∧ ρ ≤ δ ∧
    (∀ (ε γ T : ℝ) (s s' : ℝ → Fin (p + 1) → ℝ) (y y' : ℝ → ColState r p z), Spec.Solves colComp (fun t u => m.rhs P tH (s t) u) 0 T y →
      Spec.Solves colComp (fun t u => m.rhs P tH (s' t) u) 0 T y' → (∀ t ∈ Icc 0 T, ∑ i, s t i = ∑ i, cin i) →
      (∀ t ∈ Icc 0 T, ∑ i, s' t i = ∑ i, cin i) → (∀ t ∈ Icc 0 T, ∀ i, |s t i - cin i| ≤ δ) →
      (∀ t ∈ Icc 0 T, ∀ i, |s' t i - cin i| ≤ δ) → (∀ t ∈ Icc 0 T, ∀ i, |s t i - s' t i| ≤ γ) → Spec.Totals (∑ i, cin i) Q (y 0) →
      Spec.Totals (∑ i, cin i) Q (y' 0) → Spec.IonWithin cin q δ (y 0) → Spec.IonWithin cin q δ (y' 0) → Spec.ColNear ε (y 0) (y' 0) →
      ∀ t ∈ Icc 0 T, Spec.ColNear (C * (Real.exp (-(ω * t)) * ε + γ)) (y t) (y' t)) ∧
    ∀ (s : ℝ → Fin (p + 1) → ℝ) (τ β : ℝ), Continuous s → 0 < τ → (∀ t, s (t + τ) = s t) → (∀ t, ∑ i, s t i = ∑ i, cin i) →
      (∀ t i, |s t i - cin i| ≤ β) → β ≤ ρ →
      ∃ y : ℝ → ColState r p z, (∀ T, Spec.Solves colComp (fun t u => m.rhs P tH (s t) u) 0 T y) ∧ (∀ t, 0 ≤ t → y (t + τ) = y t) ∧
        (∀ t, 0 ≤ t → Spec.IonWithin cin q (C * β) (y t)) ∧ Spec.IonWithin cin q δ (y 0) ∧ Spec.Totals (∑ i, cin i) Q (y 0) := by
  obtain ⟨L, e, H, ℓ, lam, he, hL⟩ := red_energy h hc hq
  obtain ⟨G, hG⟩ := axial_form h.axial
  set B := redPush P tH with hB
  obtain ⟨δ, C, ω, ρ, hδ, hC, hω, hρ, hρδ, hCρ, h1, h2⟩ := mbed_step (z := z) he (axial_moves h.axial) hG (red_flow h.toIonColumn)
    (ptRhs_smooth (redIso_smooth h.toIonColumn hc hq)) hL (redPt_zero h.toIonColumn hc hq) (norm_nonneg B)
  have hpush : ∀ (β : ℝ) (f : Fin p → ℝ), 0 ≤ β → (∀ i, |f i| ≤ β) → ‖B f‖ ≤ ‖B‖ * β := fun β f hβ hf =>
    (B.le_opNorm _).trans (mul_le_mul_of_nonneg_left ((pi_norm_le_iff_of_nonneg hβ).2 fun i => hf i) (norm_nonneg B))
  have hp1 : (0 : ℝ) < p + 1 := by positivity
  refine ⟨δ, (p + 1) * C, ω, min ρ (δ / ((p + 1) * C)), hδ, by positivity, hω, lt_min hρ (by positivity), (min_le_left _ _).trans hρδ,
    fun ε γ T s s' y y' hy hy' hst hst' hs hs' hss hT hT' h0 h0' hn t ht => ?_, fun s τ β hsc hτ hper hst hs hβ => ?_⟩
  · have hε0 : 0 ≤ ε := (abs_nonneg _).trans (hn.2 0 0 0)
    have hγ0 : 0 ≤ γ := (abs_nonneg _).trans (hss t ht 0)
    have := h1 (fun t => redExc cin q (y t)) (fun t => redExc cin q (y' t)) (fun t => B fun j => s t j.succ - cin j.succ)
      (fun t => B fun j => s' t j.succ - cin j.succ) T γ (red_deriv_in h.toIonColumn hc hq hst hy hT) (red_deriv_in h.toIonColumn hc hq hst' hy' hT')
      (fun t ht => hpush δ _ hδ.le fun j => hs t ht j.succ) (fun t ht => hpush δ _ hδ.le fun j => hs' t ht j.succ) hγ0 (fun t ht => by
        rw [← map_sub]
        refine hpush γ _ hγ0 fun j => ?_
        rw [Pi.sub_apply, sub_sub_sub_cancel_right]
        exact hss t ht j.succ) (redExc_norm hδ.le h0) (redExc_norm hδ.le h0') t ht
    have h3 := near_redExc (red_totals_in h.toIonColumn hc hq hst hy hT t ht) (red_totals_in h.toIonColumn hc hq hst' hy' hT' t ht)
      (ε := C * (Real.exp (-(ω * t)) * ε + γ)) (by positivity)
      (this.trans (mul_le_mul_of_nonneg_left (add_le_add (mul_le_mul_of_nonneg_left (redExc_near hε0 hn) (Real.exp_pos _).le) le_rfl) hC.le))
    rwa [← mul_assoc] at h3
  · have hβ0 : 0 ≤ β := (abs_nonneg _).trans (hs 0 0)
    obtain ⟨x, hx, hxp, hxb⟩ := h2 (fun t => B fun j => s t j.succ - cin j.succ) τ β (B.continuous.comp (continuous_pi fun j =>
      ((continuous_apply j.succ).comp hsc).sub continuous_const)) hτ (fun t => by beta_reduce; rw [hper]) hβ0 (hβ.trans (min_le_left _ _))
      (fun t => hpush β _ hβ0 fun j => hs t j.succ)
    have hT : ∀ t, Spec.Totals (∑ i, cin i) Q (ionState cin q cin (mext (x t))) := fun t => ionState_totals hq.total cin (mext_sum (x t))
    have hw : ∀ t, 0 ≤ t → Spec.IonWithin cin q ((p + 1) * C * β) (ionState cin q cin (mext (x t))) := fun t ht => by
      rw [mul_assoc]
      exact redExc_within hq.total (hT t) (mul_nonneg hC.le hβ0) (by rw [redExc_state]; exact hxb t ht)
    have hb : (p + 1) * C * β ≤ δ := by
      have := mul_le_mul_of_nonneg_left (hβ.trans (min_le_right _ _)) (by positivity : (0 : ℝ) ≤ (p + 1) * C)
      rwa [mul_div_cancel₀ _ (by positivity)] at this
    refine ⟨fun t => ionState cin q cin (mext (x t)), fun T => red_solves_in h.toIonColumn hq.total cin (fun t _ => hst t) (hx T),
      fun t ht => by beta_reduce; rw [hxp t ht], hw, ?_, hT 0⟩
    exact ⟨fun i w hw0 => ((hw 0 le_rfl).1 i w hw0).trans hb, fun k i w => ((hw 0 le_rfl).2 k i w).trans hb⟩

/-- C276. Two columns that start near exhaustion by `cin` with the totals of `solve`, within `ε` of each other, under influents near `cin` of its
total that stay within `γ` of each other, are within `C (exp (-ωt) ε + γ)` of each other in all waters and loadings. -/
theorem c276_forget (h : Spec.MildColumn m P jac tH cin q) (hc : ∀ i, 0 < cin i) (hq : Spec.SpentLoadings m P cin Q q) :
    ∃ δ C ω : ℝ, 0 < δ ∧ 0 < C ∧ 0 < ω ∧
    ∀ (ε γ T : ℝ) (s s' : ℝ → Fin (p + 1) → ℝ) (y y' : ℝ → ColState r p z), Spec.Solves colComp (fun t u => m.rhs P tH (s t) u) 0 T y →
      Spec.Solves colComp (fun t u => m.rhs P tH (s' t) u) 0 T y' → (∀ t ∈ Icc 0 T, ∑ i, s t i = ∑ i, cin i) →
      (∀ t ∈ Icc 0 T, ∑ i, s' t i = ∑ i, cin i) → (∀ t ∈ Icc 0 T, ∀ i, |s t i - cin i| ≤ δ) →
      (∀ t ∈ Icc 0 T, ∀ i, |s' t i - cin i| ≤ δ) → (∀ t ∈ Icc 0 T, ∀ i, |s t i - s' t i| ≤ γ) → Spec.Totals (∑ i, cin i) Q (y 0) →
      Spec.Totals (∑ i, cin i) Q (y' 0) → Spec.IonWithin cin q δ (y 0) → Spec.IonWithin cin q δ (y' 0) → Spec.ColNear ε (y 0) (y' 0) →
      ∀ t ∈ Icc 0 T, Spec.ColNear (C * (Real.exp (-(ω * t)) * ε + γ)) (y t) (y' t) := by
  obtain ⟨δ, C, ω, -, hδ, hC, hω, -, -, h1, -⟩ := ion_step h hc hq
  exact ⟨δ, C, ω, hδ, hC, hω, h1⟩

/-- C276. Under influents of constant total that vary continuously within `β` of `cin` and recur with period `τ` there is a run that recurs with
the same period, within `C β` of exhaustion. Every run that starts near exhaustion with its totals comes to it exponentially, so it is the only
one near exhaustion. -/
theorem c276_cycle (h : Spec.MildColumn m P jac tH cin q) (hc : ∀ i, 0 < cin i) (hq : Spec.SpentLoadings m P cin Q q) :
    ∃ δ C ω ρ : ℝ, 0 < δ ∧ 0 < C ∧ 0 < ω ∧ 0 < ρ ∧
    ∀ (s : ℝ → Fin (p + 1) → ℝ) (τ β : ℝ), Continuous s → 0 < τ → (∀ t, s (t + τ) = s t) → (∀ t, ∑ i, s t i = ∑ i, cin i) →
      (∀ t i, |s t i - cin i| ≤ β) → β ≤ ρ →
      ∃ y : ℝ → ColState r p z, (∀ T, Spec.Solves colComp (fun t u => m.rhs P tH (s t) u) 0 T y) ∧ (∀ t, 0 ≤ t → y (t + τ) = y t) ∧
        (∀ t, 0 ≤ t → Spec.IonWithin cin q (C * β) (y t)) ∧ Spec.IonWithin cin q δ (y 0) ∧ Spec.Totals (∑ i, cin i) Q (y 0) ∧
        (∀ (ε : ℝ) (x : ℝ → ColState r p z), (∀ T, Spec.Solves colComp (fun t u => m.rhs P tH (s t) u) 0 T x) →
          Spec.Totals (∑ i, cin i) Q (x 0) → Spec.IonWithin cin q δ (x 0) → Spec.ColNear ε (x 0) (y 0) →
          ∀ t, 0 ≤ t → Spec.ColNear (C * (Real.exp (-(ω * t)) * ε)) (x t) (y t)) ∧
        ∀ x : ℝ → ColState r p z, (∀ T, Spec.Solves colComp (fun t u => m.rhs P tH (s t) u) 0 T x) → Spec.Totals (∑ i, cin i) Q (x 0) →
          Spec.IonWithin cin q δ (x 0) → (∀ t, 0 ≤ t → x (t + τ) = x t) → ∀ t, 0 ≤ t → Spec.ColNear 0 (x t) (y t) := by
  obtain ⟨δ, C, ω, ρ, hδ, hC, hω, hρ, hρδ, h1, h2⟩ := ion_step h hc hq
  refine ⟨δ, C, ω, ρ, hδ, hC, hω, hρ, fun s τ β hsc hτ hper hst hs hβ => ?_⟩
  obtain ⟨y, hy, hyp, hyb, hy0, hyT⟩ := h2 s τ β hsc hτ hper hst hs hβ
  have hsδ : ∀ t i, |s t i - cin i| ≤ δ := fun t i => (hs t i).trans (hβ.trans hρδ)
  have hcome : ∀ (ε : ℝ) (x : ℝ → ColState r p z), (∀ T, Spec.Solves colComp (fun t u => m.rhs P tH (s t) u) 0 T x) →
      Spec.Totals (∑ i, cin i) Q (x 0) → Spec.IonWithin cin q δ (x 0) → Spec.ColNear ε (x 0) (y 0) →
      ∀ t, 0 ≤ t → Spec.ColNear (C * (Real.exp (-(ω * t)) * ε)) (x t) (y t) := by
    intro ε x hx hxT hx0 hn t ht
    have := h1 ε 0 t s s x y (hx t) (hy t) (fun t _ => hst t) (fun t _ => hst t) (fun t _ => hsδ t) (fun t _ => hsδ t) (fun t _ i => by simp)
      hxT hyT hx0 hy0 hn t ⟨ht, le_rfl⟩
    rwa [add_zero] at this
  refine ⟨y, hy, hyp, hyb, hy0, hyT, hcome, fun x hx hxT hx0 hxp t ht => ?_⟩
  have hn : Spec.ColNear (2 * δ) (x 0) (y 0) := by
    have key : ∀ a b e : ℝ, |a - e| ≤ δ → |b - e| ≤ δ → |a - b| ≤ 2 * δ := fun a b e ha hb => by
      rw [abs_le] at ha hb ⊢
      constructor <;> linarith [ha.1, ha.2, hb.1, hb.2]
    exact ⟨fun i w hw => key _ _ _ (hx0.1 i w hw) (hy0.1 i w hw), fun k i w => key _ _ _ (hx0.2 k i w) (hy0.2 k i w)⟩
  have hper' : ∀ (v : ℝ → ColState r p z), (∀ t, 0 ≤ t → v (t + τ) = v t) → ∀ (k : ℕ), v (t + k * τ) = v t := by
    intro v hv k
    induction k with
    | zero => simp
    | succ k ih => rw [show t + ((k + 1 : ℕ) : ℝ) * τ = t + k * τ + τ by push_cast; ring, hv _ (by positivity), ih]
  have hk : ∀ k : ℕ, Spec.ColNear (C * (Real.exp (-(ω * (t + k * τ))) * (2 * δ))) (x t) (y t) := fun k => by
    have := hcome _ x hx hxT hx0 hn (t + k * τ) (by positivity)
    rwa [hper' x hxp, hper' y hyp] at this
  have hlim : Tendsto (fun k : ℕ => C * (Real.exp (-(ω * (t + k * τ))) * (2 * δ))) atTop (𝓝 0) := by
    have h3 : Tendsto (fun k : ℕ => ω * (t + k * τ)) atTop atTop :=
      (tendsto_atTop_add_const_left _ t (tendsto_natCast_atTop_atTop.atTop_mul_const hτ)).const_mul_atTop hω
    have h4 := ((Real.tendsto_exp_neg_atTop_nhds_zero.comp h3).mul_const (2 * δ)).const_mul C
    simpa using h4
  exact ⟨fun i w hw => ge_of_tendsto' hlim fun j => (hk j).1 i w hw, fun k i w => ge_of_tendsto' hlim fun j => (hk j).2 k i w⟩

end

/-- The hypotheses meet: sulfate and nitrate of mobilities that differ by a factor 16, and an influent that trades chloride for nitrate and back
for ever: there is a run that recurs, and a run that starts exhausted comes to it. -/
example (m : ColModel) (r z : ℕ) (A : Fin (z + 1) → Fin (z + 1) → ℝ) (hA : Spec.AxialGrid z A) : ∃ (P : ColParams r 2 z) (q : Fin 3 → ℝ)
    (β : ℝ) (y x : ℝ → ColState r 2 z), P.Ds 2 = 16 * P.Ds 1 ∧ P.kL 1 = 9 * P.kL 2 ∧ 0 < β ∧
    (∀ T, Spec.Solves colComp (fun t u => m.rhs P 1 ![8 - β * Real.sin t, 1, 2 + β * Real.sin t] u) 0 T y) ∧
    (∀ T, Spec.Solves colComp (fun t u => m.rhs P 1 ![8 - β * Real.sin t, 1, 2 + β * Real.sin t] u) 0 T x) ∧
    (∀ t, 0 ≤ t → y (t + 2 * Real.pi) = y t) ∧ Spec.IonWithin ![8, 1, 2] q 0 (x 0) ∧
    Tendsto (fun t => x t 1 2 0 - y t 1 2 0) atTop (𝓝 0) := by
  obtain ⟨P, jac, q, Q, hM, hq, hP1, hP2⟩ := ion_column_ex m r z A hA
  have hc : ∀ i, 0 < (![8, 1, 2] : Fin 3 → ℝ) i := fun i => by fin_cases i <;> simp
  obtain ⟨δ1, hδ1, hrun⟩ := c274_run hM hc hq
  obtain ⟨δ2, C, ω, ρ, hδ2, hC, hω, hρ, hcyc⟩ := c276_cycle hM hc hq
  set δ := min δ1 ρ with hδ
  have hδ0 : 0 < δ := lt_min hδ1 hρ
  set s : ℝ → Fin 3 → ℝ := fun t => ![8 - δ * Real.sin t, 1, 2 + δ * Real.sin t] with hs
  have hsc : Continuous s := by
    refine continuous_pi fun i => ?_
    fin_cases i
    · show Continuous fun t => 8 - δ * Real.sin t
      fun_prop
    · exact continuous_const
    · show Continuous fun t => 2 + δ * Real.sin t
      fun_prop
  have hst : ∀ t, ∑ i, s t i = ∑ i, (![8, 1, 2] : Fin 3 → ℝ) i := fun t => by
    rw [Fin.sum_univ_three, Fin.sum_univ_three]
    simp [s]
    ring
  have hsd : ∀ t i, |s t i - (![8, 1, 2] : Fin 3 → ℝ) i| ≤ δ := fun t i => by
    have h1 : |δ * Real.sin t| ≤ δ := by
      rw [abs_mul, abs_of_pos hδ0]
      nlinarith [Real.abs_sin_le_one t]
    fin_cases i
    · simpa [s] using h1
    · simpa [s] using hδ0.le
    · simpa [s] using h1
  have hxs : msum (0 : MBed (MBead 3 r) 3 z) = 0 := by
    refine Prod.ext (funext fun _ => funext fun k => ?_) (funext fun w => Prod.ext (funext fun _ => funext fun k => ?_) (funext fun _ => ?_)) <;>
      simp [msum]
  set u := ionState ![8, 1, 2] q ![8, 1, 2] (0 : MBed (MBead 3 r) 3 z) with hu
  have hT : Spec.Totals (∑ i, (![8, 1, 2] : Fin 3 → ℝ) i) Q u := ionState_totals hq.total _ hxs
  have hw : ∀ e, 0 ≤ e → Spec.IonWithin ![8, 1, 2] q e u := fun e he =>
    (ionExc_norm he).1 (by rw [ionExc_state, norm_zero]; exact he)
  obtain ⟨y, hy, hyp, -, hy0, hyT, hcome, -⟩ := hcyc s (2 * Real.pi) δ hsc Real.two_pi_pos (fun t => by
    simp only [hs]
    rw [Real.sin_add_two_pi]) hst hsd (min_le_right _ _)
  obtain ⟨x, hx0, hx, -⟩ := hrun s hsc hst (fun t i => (hsd t i).trans (min_le_left _ _)) u hT (hw _ hδ1.le)
  refine ⟨P, q, δ, y, x, hP1, hP2, hδ0, hy, hx, hyp, by rw [hx0]; exact hw 0 le_rfl, ?_⟩
  have hn : Spec.ColNear δ2 (x 0) (y 0) := by
    have h1 := hw 0 le_rfl
    rw [← hx0] at h1
    have key : ∀ a b e : ℝ, |a - e| ≤ 0 → |b - e| ≤ δ2 → |a - b| ≤ δ2 := fun a b e ha hb => by
      have : a = e := by have := abs_nonpos_iff.1 ha; linarith
      rw [this, abs_sub_comm]
      exact hb
    exact ⟨fun i w hw => key _ _ _ (h1.1 i w hw) (hy0.1 i w hw), fun k i w => key _ _ _ (h1.2 k i w) (hy0.2 k i w)⟩
  have h1 := fun t ht => (hcome δ2 x hx (by rw [hx0]; exact hT) (by rw [hx0]; exact hw _ hδ2.le) hn t ht).2 0 2 0
  have hlim : Tendsto (fun t : ℝ => C * (Real.exp (-(ω * t)) * δ2)) atTop (𝓝 0) := by
    have h3 : Tendsto (fun t : ℝ => ω * t) atTop atTop := tendsto_id.const_mul_atTop hω
    have h4 := ((Real.tendsto_exp_neg_atTop_nhds_zero.comp h3).mul_const δ2).const_mul C
    simpa using h4
  refine squeeze_zero_norm' ?_ hlim
  filter_upwards [eventually_ge_atTop 0] with t ht
  exact h1 t ht

end WTM
