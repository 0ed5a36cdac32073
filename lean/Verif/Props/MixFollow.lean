import Verif.Lemmas.NearFollow
import Verif.Props.MixCycle

/-! Property C278: near exhaustion a carbon column with compounds in competition follows an influent that changes slowly: it stays by the column
exhausted by the water of the moment, up to a multiple of the rate of change. -/
set_option autoImplicit false
namespace WTM
open BigOperators Set Topology Filter

section
variable {n r z : ℕ} {D : GacDim n r z} {jac : Fin r → ℝ} {c fo fa q : Fin n → ℝ}

/-- Specification: the column stands still under the influents `s`, and all its water is the influent. -/
structure Spec.GacSpent (D : GacDim n r z) (fo fa s : Fin n → ℝ) (u : GacState n r z) : Prop where
  still : ∀ i a w, gacRhs D s fo fa u i a w = 0
  water : ∀ i w, u i (Fin.last (r + 1)) w = s i

/-- Where no bead changes the water is that of the influent. -/
theorem gac_still_water (h : Spec.MixSetting D jac c fo fa q) {s : Fin n → ℝ} {u : GacState n r z} (hu : ∀ i a w, gacRhs D s fo fa u i a w = 0)
    (i : Fin n) {w : Fin (z + 1)} (hw : w ≠ 0) : u i (Fin.last (r + 1)) w = s i := by
  have hdg : (1 / D.dgI i) ≠ 0 := (one_div_pos.2 (h.dgI i)).ne'
  have h1 : ∀ w, w ≠ 0 → ∑ w', D.az w w' * Spec.bulk s u i w' = 0 := fun w hw => by
    have := c49_exchange D (h.beads.wpos (Fin.last r)).ne' s fo fa u i hdg (by rw [one_div_one_div]) hw
    simp only [hu, mul_zero, Finset.sum_const_zero, add_zero] at this
    exact (mul_eq_zero.1 this.symm).resolve_left (neg_ne_zero.2 h.flow.ne')
  have h2 := (axial_moves h.axial (Spec.bulk s u i)).1 h1 w
  simpa [Spec.bulk, hw] using h2

/-- C278. There are columns `v s` exhausted by each water `s` near `c`, within `C β` of exhaustion by `c` for waters within `β` of `c`, and a run that starts near
exhaustion by `c` under influents near `c` that change by at most `κ` per unit of time is at every time within `C (exp (-ωt) ε + κ)` of the column
exhausted by the influent of the moment, where `ε` is its distance at the start. -/
theorem c278_gac [NeZero n] (h : Spec.MixSetting D jac c fo fa q) : ∃ (δ C ω : ℝ) (v : (Fin n → ℝ) → GacState n r z), 0 < δ ∧ 0 < C ∧ 0 < ω ∧
    (∀ s : Fin n → ℝ, (∀ i, |s i - c i| ≤ δ) → Spec.GacSpent D fo fa s (v s)) ∧
    (∀ (s : Fin n → ℝ) (β : ℝ), (∀ i, |s i - c i| ≤ β) → β ≤ δ → Spec.MixWithin c q (C * β) (v s)) ∧
    ∀ (ε κ T : ℝ) (s : ℝ → Fin n → ℝ) (y : ℝ → GacState n r z), Spec.Solves gacComp (fun t u => gacRhs D (s t) fo fa u) 0 T y →
      (∀ t ∈ Icc 0 T, ∀ i, |s t i - c i| ≤ δ) → (∀ t ∈ Icc 0 T, ∀ t' ∈ Icc 0 T, ∀ i, |s t i - s t' i| ≤ κ * |t - t'|) → 0 ≤ κ →
      Spec.MixWithin c q δ (y 0) → Spec.MixNear ε (y 0) (v (s 0)) →
      ∀ t ∈ Icc 0 T, Spec.MixNear (C * (Real.exp (-(ω * t)) * ε + κ)) (y t) (v (s t)) := by
  obtain ⟨L, e, H, ℓ, lam, he, hL⟩ := mix_energy h
  obtain ⟨G, hG⟩ := axial_form h.axial
  set P := (mbedPush (fun i => D.stdv i * D.dgI i) D.dg1 D.az D.wr).toContinuousLinearMap with hP
  have hp : 0 < ‖P‖ + 1 := by positivity
  obtain ⟨δ, C, ω, ξ, hδ, hC, hω, hξ, hfol⟩ := mbed_follow (z := z) he (axial_moves h.axial) hG h.flow
    (ptRhs_smooth (mix_smooth h)) hL (ptRhs_zero (mix_zero h)) hp
  have hpush : ∀ (β : ℝ) (s s' : Fin n → ℝ), 0 ≤ β → (∀ i, |s i - s' i| ≤ β) → ‖P (s - s')‖ ≤ (‖P‖ + 1) * β := fun β s s' hβ hs =>
    (P.le_opNorm _).trans (mul_le_mul (by linarith) ((pi_norm_le_iff_of_nonneg hβ).2 fun i => hs i) (norm_nonneg _) hp.le)
  refine ⟨δ, C, ω, fun s => mixState c q s (ξ (P (s - c))), hδ, hC, hω, fun s hs => ?_, fun s β hs hβ => ?_,
    fun ε κ T s y hy hs hlip hκ h0 hn t ht => ?_⟩
  · have hr := (hξ _ (hpush δ s c hδ.le hs)).1
    have hsol := mix_solves_in h s (s := fun _ => s) (T := 1) (x := fun _ => ξ (P (s - c))) (fun t _ =>
      (hasDerivWithinAt_const _ _ _).congr_deriv hr.symm)
    have hstill : ∀ i a w, gacRhs D s fo fa (mixState c q s (ξ (P (s - c)))) i a w = 0 := fun i a w => by
      have h1 := hsol 0 ⟨le_rfl, zero_le_one⟩ (i, a, w)
      exact ((uniqueDiffOn_Icc zero_lt_one) 0 ⟨le_rfl, zero_le_one⟩).eq_deriv _ h1 (hasDerivWithinAt_const _ _ _)
    refine ⟨hstill, fun i w => ?_⟩
    by_cases hw : w = 0
    · rw [hw]
      simp [mixState]
    · exact gac_still_water h hstill i hw
  · have hβ0 : 0 ≤ β := (abs_nonneg _).trans (hs 0)
    refine (mixExc_norm (by positivity)).1 ?_
    rw [mixExc_state]
    have h1 := hpush β s c hβ0 hs
    refine ((hξ _ (h1.trans (mul_le_mul_of_nonneg_left hβ hp.le))).2).trans (mul_le_mul_of_nonneg_left ?_ hC.le)
    rw [div_le_iff₀ hp, mul_comm]
    exact h1
  · have hε0 : 0 ≤ ε := (abs_nonneg _).trans (hn.1 0 0 0)
    have := hfol (fun t => mixExc c q (y t)) (fun t => P (s t - c)) T κ (mix_deriv_in h hy) (fun t ht => hpush δ _ _ hδ.le (hs t ht)) hκ
      (fun t ht t' ht' => by
        rw [← map_sub, sub_sub_sub_cancel_right]
        exact hpush _ _ _ (by positivity) (hlip t ht t' ht')) ((mixExc_norm hδ.le).2 h0) t ht
    have hst : ∀ t, mixExc c q (mixState c q (s t) (ξ (P (s t - c)))) = ξ (P (s t - c)) := fun t => mixExc_state _ _
    refine (mixExc_near (c := c) (q := q) (by positivity)).1 ?_
    rw [hst]
    refine this.trans (mul_le_mul_of_nonneg_left (add_le_add (mul_le_mul_of_nonneg_left ?_ (Real.exp_pos _).le) le_rfl) hC.le)
    beta_reduce
    rw [← hst 0]
    exact (mixExc_near hε0).2 hn

/-- C278. So all waters below the inlet, the effluent among them, are within `C (exp (-ωt) (ε + β) + κ)` of the influent of the moment, where `ε`
and `β` say how far the column and the influent at the start are from `c`. -/
theorem c278_effluent [NeZero n] (h : Spec.MixSetting D jac c fo fa q) : ∃ δ C ω : ℝ, 0 < δ ∧ 0 < C ∧ 0 < ω ∧
    ∀ (ε β κ T : ℝ) (s : ℝ → Fin n → ℝ) (y : ℝ → GacState n r z), Spec.Solves gacComp (fun t u => gacRhs D (s t) fo fa u) 0 T y →
      (∀ t ∈ Icc 0 T, ∀ i, |s t i - c i| ≤ δ) → (∀ t ∈ Icc 0 T, ∀ t' ∈ Icc 0 T, ∀ i, |s t i - s t' i| ≤ κ * |t - t'|) → 0 ≤ κ →
      Spec.MixWithin c q ε (y 0) → ε ≤ δ → (∀ i, |s 0 i - c i| ≤ β) → β ≤ δ →
      ∀ t ∈ Icc 0 T, ∀ i w, w ≠ 0 → |y t i (Fin.last (r + 1)) w - s t i| ≤ C * (Real.exp (-(ω * t)) * (ε + β) + κ) := by
  obtain ⟨δ, C, ω, v, hδ, hC, hω, hv, hvb, hf⟩ := c278_gac h
  refine ⟨δ, C * (1 + C), ω, hδ, by positivity, hω, fun ε β κ T s y hy hs hlip hκ h0 hε hβs hβ t ht i w hw => ?_⟩
  have hβ0 : 0 ≤ β := (abs_nonneg _).trans (hβs 0)
  have hε0 : 0 ≤ ε := (abs_nonneg _).trans (h0.1 0 0 0)
  have h1 := hvb (s 0) β hβs hβ
  have hn : Spec.MixNear (ε + C * β) (y 0) (v (s 0)) := by
    have key : ∀ a b e : ℝ, |a - e| ≤ ε → |b - e| ≤ C * β → |a - b| ≤ ε + C * β := fun a b e ha hb => by
      rw [abs_le] at ha hb ⊢
      constructor <;> linarith [ha.1, ha.2, hb.1, hb.2]
    exact ⟨fun i k w => key _ _ _ (h0.1 i k w) (h1.1 i k w), fun i w hw => key _ _ _ (h0.2 i w hw) (h1.2 i w hw)⟩
  have h2 := (hf (ε + C * β) κ T s y hy hs hlip hκ ⟨fun i k w => (h0.1 i k w).trans hε, fun i w hw => (h0.2 i w hw).trans hε⟩ hn t ht).2 i w hw
  rw [(hv (s t) (hs t ht)).water] at h2
  refine h2.trans ?_
  rw [mul_assoc]
  refine mul_le_mul_of_nonneg_left ?_ hC.le
  have h3 : ε + C * β ≤ (1 + C) * (ε + β) := by nlinarith
  have h4 := mul_le_mul_of_nonneg_left h3 (Real.exp_pos (-(ω * t))).le
  nlinarith

/-- Two compounds on columns of any numbers of nodes, and influents that swing for ever by a fixed `β`: for every `η` there is a run that starts
exhausted, under a slow enough swing, whose effluent is within `η` of the influent at all times. -/
example (r z : ℕ) (hz : 1 ≤ z) (A : Fin (z + 1) → Fin (z + 1) → ℝ) (hA : Spec.AxialGrid z A) : ∃ (D : GacDim 2 r z) (c : Fin 2 → ℝ) (β : ℝ),
    0 < β ∧ D.az = A ∧ ∀ η : ℝ, 0 < η → ∃ (k : ℝ) (y : ℝ → GacState 2 r z), 0 < k ∧
    (∀ T, Spec.Solves gacComp (fun t u => gacRhs D (fun i => c i + β * Real.sin (k * t)) 1 1 u) 0 T y) ∧ Spec.MixWithin c 1 0 (y 0) ∧
    ∀ t, 0 ≤ t → |y t 0 (Fin.last (r + 1)) (Fin.last z) - (c 0 + β * Real.sin (k * t))| ≤ η := by
  obtain ⟨D, jac, hD, -, -, -, hz'⟩ := mix_setting_ex r z A hA
  set c : Fin 2 → ℝ := ![9 / 2, 81 / 32] with hc
  obtain ⟨δ', hδ', hr⟩ := c273_run hD
  obtain ⟨δ, C, ω, hδ, hC, hω, hx⟩ := c278_effluent hD
  set β := min δ δ' with hβ
  have hβ0 : 0 < β := lt_min hδ hδ'
  refine ⟨D, c, β, hβ0, hz', fun η hη => ?_⟩
  set k := η / (C * β) with hk
  have hk0 : 0 < k := by positivity
  have hsin : ∀ t i, |c i + β * Real.sin (k * t) - c i| ≤ β := fun t i => by
    rw [add_sub_cancel_left, abs_mul, abs_of_pos hβ0]
    exact mul_le_of_le_one_right hβ0.le (Real.abs_sin_le_one _)
  have hu : ∀ ε : ℝ, 0 ≤ ε → Spec.MixWithin (r := r) (z := z) c 1 ε (fun i a _ => if a = Fin.last (r + 1) then c i else 1) := by
    intro ε hε
    refine ⟨fun i k w => ?_, fun i w _ => ?_⟩
    · beta_reduce
      rw [if_neg (Fin.castSucc_lt_last k).ne]
      simpa using hε
    · beta_reduce
      rw [if_pos rfl, sub_self, abs_zero]
      exact hε
  obtain ⟨y, hy0, hy, -⟩ := hr (fun t i => c i + β * Real.sin (k * t)) (by fun_prop) (fun t i => (hsin t i).trans (min_le_right _ _)) _ (hu δ' hδ'.le)
  refine ⟨k, y, hk0, hy, by rw [hy0]; exact hu 0 le_rfl, fun t ht => ?_⟩
  have hl : Fin.last z ≠ 0 := by
    intro h
    have := congrArg Fin.val h
    simp at this
    omega
  have := hx 0 0 (β * k) t (fun t i => c i + β * Real.sin (k * t)) y (hy t) (fun t _ i => (hsin t i).trans (min_le_left _ _))
    (fun a _ b _ i => by
      rw [add_sub_add_left_eq_sub, ← mul_sub, abs_mul, abs_of_pos hβ0, mul_assoc]
      refine mul_le_mul_of_nonneg_left ?_ hβ0.le
      have h1 := Real.abs_sin_sub_sin_le (k * a) (k * b)
      rwa [← mul_sub, abs_mul, abs_of_pos hk0] at h1) (by positivity) (by rw [hy0]; exact hu 0 le_rfl) hδ.le (fun i => by simp) hδ.le t ⟨ht, le_rfl⟩ 0
    (Fin.last z) hl
  refine this.trans (le_of_eq ?_)
  rw [hk]
  field_simp
  simp

end
end WTM
