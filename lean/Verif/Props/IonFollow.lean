import Verif.Lemmas.NearFollow
import Verif.Props.IonCycle

/-! Property C279: near exhaustion an ion exchange column with any number of ions of mild mobilities follows an influent of constant total that
changes slowly: it stays by the column exhausted by the water of the moment, up to a multiple of the rate of change. -/
set_option autoImplicit false
namespace WTM
open BigOperators Set Topology Filter

section
variable {r p z : ℕ} {m : ColModel} {P : ColParams r p z} {jac : Fin r → ℝ} {tH : ℝ} {cin q : Fin (p + 1) → ℝ} {Q : ℝ}

/-- Specification: the column stands still under the influent `s`, and all its water is the influent. -/
structure Spec.IonSpent (m : ColModel) (P : ColParams r p z) (tH : ℝ) (s : Fin (p + 1) → ℝ) (u : ColState r p z) : Prop where
  still : ∀ a i w, m.rhs P tH s u a i w = 0
  water : ∀ i w, u 0 i w = s i

/-- Where no bead changes the water is that of the influent. -/
theorem ion_still_water (h : Spec.IonColumn m P jac tH) {s : Fin (p + 1) → ℝ} {u : ColState r p z} (hu : ∀ a i w, m.rhs P tH s u a i w = 0)
    (i : Fin (p + 1)) {w : Fin (z + 1)} (hw : w ≠ 0) : u 0 i w = s i := by
  have h1 : ∀ w, w ≠ 0 → ∑ w', P.Az w w' * setInlet u s 0 i w' = 0 := fun w hw => by
    have := c29_exchange m P tH s u (h.grid.wpos (Fin.last r)).ne' h.bed.1.ne' i hw
    simp only [hu, mul_zero, Finset.sum_const_zero, add_zero] at this
    rw [mul_assoc] at this
    have h2 := (mul_eq_zero.1 this.symm).resolve_left (neg_ne_zero.2 (div_pos h.flow.1 h.flow.2).ne')
    exact (mul_eq_zero.1 h2).resolve_right h.time.ne'
  have h2 := (axial_moves h.axial (fun w => setInlet u s 0 i w)).1 h1 w
  simpa [setInlet, hw] using h2

/-- C279. There are columns `v s` exhausted by each water `s` near `cin` of its total, with the totals of `solve`, within `C β` of exhaustion by
`cin` for waters within `β` of `cin`. A run with these totals that starts near exhaustion by `cin` under influents of this total near `cin` that
change by at most `κ` per unit of time is at every time within `C (exp (-ωt) ε + κ)` of the column exhausted by the influent of the moment, where
`ε` is its distance at the start. -/
theorem c279_ion (h : Spec.MildColumn m P jac tH cin q) (hc : ∀ i, 0 < cin i) (hq : Spec.SpentLoadings m P cin Q q) :
    ∃ (δ C ω : ℝ) (v : (Fin (p + 1) → ℝ) → ColState r p z), 0 < δ ∧ 0 < C ∧ 0 < ω ∧
    (∀ s : Fin (p + 1) → ℝ, (∀ i, |s i - cin i| ≤ δ) → ∑ i, s i = ∑ i, cin i →
      Spec.IonSpent m P tH s (v s) ∧ Spec.Totals (∑ i, cin i) Q (v s)) ∧
    (∀ (s : Fin (p + 1) → ℝ) (β : ℝ), (∀ i, |s i - cin i| ≤ β) → β ≤ δ → Spec.IonWithin cin q (C * β) (v s)) ∧
    ∀ (ε κ T : ℝ) (s : ℝ → Fin (p + 1) → ℝ) (y : ℝ → ColState r p z), Spec.Solves colComp (fun t u => m.rhs P tH (s t) u) 0 T y →
      (∀ t ∈ Icc 0 T, ∑ i, s t i = ∑ i, cin i) → (∀ t ∈ Icc 0 T, ∀ i, |s t i - cin i| ≤ δ) →
      (∀ t ∈ Icc 0 T, ∀ t' ∈ Icc 0 T, ∀ i, |s t i - s t' i| ≤ κ * |t - t'|) → 0 ≤ κ → Spec.Totals (∑ i, cin i) Q (y 0) →
      Spec.IonWithin cin q δ (y 0) → Spec.ColNear ε (y 0) (v (s 0)) →
      ∀ t ∈ Icc 0 T, Spec.ColNear (C * (Real.exp (-(ω * t)) * ε + κ)) (y t) (v (s t)) := by
  obtain ⟨L, e, H, ℓ, lam, he, hL⟩ := red_energy h hc hq
  obtain ⟨G, hG⟩ := axial_form h.axial
  set B := redPush P tH with hB
  have hp : 0 < ‖B‖ + 1 := by positivity
  obtain ⟨δ, C, ω, ξ, hδ, hC, hω, hξ, hfol⟩ := mbed_follow (z := z) he (axial_moves h.axial) hG (red_flow h.toIonColumn)
    (ptRhs_smooth (redIso_smooth h.toIonColumn hc hq)) hL (redPt_zero h.toIonColumn hc hq) hp
  have hpush : ∀ (β : ℝ) (f : Fin p → ℝ), 0 ≤ β → (∀ i, |f i| ≤ β) → ‖B f‖ ≤ (‖B‖ + 1) * β := fun β f hβ hf =>
    (B.le_opNorm _).trans (mul_le_mul (by linarith) ((pi_norm_le_iff_of_nonneg hβ).2 fun i => hf i) (norm_nonneg _) hp.le)
  set g : (Fin (p + 1) → ℝ) → Fin p → ℝ := fun s j => s j.succ - cin j.succ with hg
  have hT : ∀ s, Spec.Totals (∑ i, cin i) Q (ionState cin q s (mext (ξ (B (g s))))) := fun s => ionState_totals hq.total s (mext_sum _)
  have hp1 : (1 : ℝ) ≤ p + 1 := by linarith [(Nat.cast_nonneg p : (0 : ℝ) ≤ p)]
  refine ⟨δ, (p + 1) * C, ω, fun s => ionState cin q s (mext (ξ (B (g s)))), hδ, by positivity, hω, fun s hs hst => ⟨?_, hT s⟩,
    fun s β hs hβ => ?_, fun ε κ T s y hy hst hs hlip hκ hyT h0 hn t ht => ?_⟩
  · have hr := (hξ _ (hpush δ (g s) hδ.le fun j => hs j.succ)).1
    have hsol := red_solves_in h.toIonColumn hq.total s (s := fun _ => s) (T := 1) (fun _ _ => hst) (x := fun _ => ξ (B (g s))) (fun t _ =>
      (hasDerivWithinAt_const _ _ _).congr_deriv hr.symm)
    have hstill : ∀ a i w, m.rhs P tH s (ionState cin q s (mext (ξ (B (g s))))) a i w = 0 := fun a i w => by
      have h1 := hsol 0 ⟨le_rfl, zero_le_one⟩ (a, i, w)
      exact ((uniqueDiffOn_Icc zero_lt_one) 0 ⟨le_rfl, zero_le_one⟩).eq_deriv _ h1 (hasDerivWithinAt_const _ _ _)
    refine ⟨hstill, fun i w => ?_⟩
    by_cases hw : w = 0
    · rw [hw]
      simp [ionState]
    · exact ion_still_water h.toIonColumn hstill i hw
  · have hβ0 : 0 ≤ β := (abs_nonneg _).trans (hs 0)
    rw [mul_assoc]
    refine redExc_within hq.total (hT s) (by positivity) ?_
    rw [redExc_state]
    have h1 := hpush β (g s) hβ0 fun j => hs j.succ
    refine ((hξ _ (h1.trans (mul_le_mul_of_nonneg_left hβ hp.le))).2).trans (mul_le_mul_of_nonneg_left ?_ hC.le)
    rw [div_le_iff₀ hp, mul_comm]
    exact h1
  · have hε0 : 0 ≤ ε := (abs_nonneg _).trans (hn.2 0 0 0)
    have := hfol (fun t => redExc cin q (y t)) (fun t => B (g (s t))) T κ (red_deriv_in h.toIonColumn hc hq hst hy hyT)
      (fun t ht => hpush δ _ hδ.le fun j => hs t ht j.succ) hκ
      (fun t ht t' ht' => by
        rw [← map_sub]
        refine hpush _ _ (by positivity) fun j => ?_
        rw [Pi.sub_apply]
        simp only [hg]
        rw [sub_sub_sub_cancel_right]
        exact hlip t ht t' ht' j.succ) (redExc_norm hδ.le h0) t ht
    have hse : ∀ t, redExc cin q (ionState cin q (s t) (mext (ξ (B (g (s t)))))) = ξ (B (g (s t))) := fun t => redExc_state _ _
    rw [mul_assoc]
    refine near_redExc (cin := cin) (q := q) (red_totals_in h.toIonColumn hc hq hst hy hyT t ht) (hT (s t)) (by positivity) ?_
    rw [hse]
    refine this.trans (mul_le_mul_of_nonneg_left (add_le_add (mul_le_mul_of_nonneg_left ?_ (Real.exp_pos _).le) le_rfl) hC.le)
    beta_reduce
    rw [← hse 0]
    exact redExc_near hε0 hn

/-- C279. So all waters below the inlet, the effluent among them, are within `C (exp (-ωt) (ε + β) + κ)` of the influent of the moment, where `ε`
and `β` say how far the column and the influent at the start are from `cin`. -/
theorem c279_effluent (h : Spec.MildColumn m P jac tH cin q) (hc : ∀ i, 0 < cin i) (hq : Spec.SpentLoadings m P cin Q q) :
    ∃ δ C ω : ℝ, 0 < δ ∧ 0 < C ∧ 0 < ω ∧
    ∀ (ε β κ T : ℝ) (s : ℝ → Fin (p + 1) → ℝ) (y : ℝ → ColState r p z), Spec.Solves colComp (fun t u => m.rhs P tH (s t) u) 0 T y →
      (∀ t ∈ Icc 0 T, ∑ i, s t i = ∑ i, cin i) → (∀ t ∈ Icc 0 T, ∀ i, |s t i - cin i| ≤ δ) →
      (∀ t ∈ Icc 0 T, ∀ t' ∈ Icc 0 T, ∀ i, |s t i - s t' i| ≤ κ * |t - t'|) → 0 ≤ κ → Spec.Totals (∑ i, cin i) Q (y 0) →
      Spec.IonWithin cin q ε (y 0) → ε ≤ δ → (∀ i, |s 0 i - cin i| ≤ β) → β ≤ δ →
      ∀ t ∈ Icc 0 T, ∀ i w, w ≠ 0 → |y t 0 i w - s t i| ≤ C * (Real.exp (-(ω * t)) * (ε + β) + κ) := by
  obtain ⟨δ, C, ω, v, hδ, hC, hω, hv, hvb, hf⟩ := c279_ion h hc hq
  refine ⟨δ, C * (1 + C), ω, hδ, by positivity, hω, fun ε β κ T s y hy hst hs hlip hκ hyT h0 hε hβs hβ t ht i w hw => ?_⟩
  have hβ0 : 0 ≤ β := (abs_nonneg _).trans (hβs 0)
  have hε0 : 0 ≤ ε := (abs_nonneg _).trans (h0.2 0 0 0)
  have h1 := hvb (s 0) β hβs hβ
  have hn : Spec.ColNear (ε + C * β) (y 0) (v (s 0)) := by
    have key : ∀ a b e : ℝ, |a - e| ≤ ε → |b - e| ≤ C * β → |a - b| ≤ ε + C * β := fun a b e ha hb => by
      rw [abs_le] at ha hb ⊢
      constructor <;> linarith [ha.1, ha.2, hb.1, hb.2]
    exact ⟨fun i w hw => key _ _ _ (h0.1 i w hw) (h1.1 i w hw), fun k i w => key _ _ _ (h0.2 k i w) (h1.2 k i w)⟩
  have h2 := (hf (ε + C * β) κ T s y hy hst hs hlip hκ hyT ⟨fun i w hw => (h0.1 i w hw).trans hε, fun k i w => (h0.2 k i w).trans hε⟩ hn t ht).1
    i w hw
  rw [(hv (s t) (hs t ht) (hst t ht)).1.water] at h2
  refine h2.trans ?_
  rw [mul_assoc]
  refine mul_le_mul_of_nonneg_left ?_ hC.le
  have h3 : ε + C * β ≤ (1 + C) * (ε + β) := by nlinarith
  have h4 := mul_le_mul_of_nonneg_left h3 (Real.exp_pos (-(ω * t))).le
  nlinarith

end

/-- Chloride, sulfate and nitrate on columns of any numbers of nodes, and an influent that trades chloride for nitrate and back for ever: for every
`η` there is a run that starts exhausted, under a slow enough swing, whose nitrate effluent is within `η` of the influent at all times. -/
example (m : ColModel) (r z : ℕ) (hz : 1 ≤ z) (A : Fin (z + 1) → Fin (z + 1) → ℝ) (hA : Spec.AxialGrid z A) : ∃ (P : ColParams r 2 z)
    (q : Fin 3 → ℝ) (β : ℝ), P.Ds 2 = 16 * P.Ds 1 ∧ 0 < β ∧ ∀ η : ℝ, 0 < η → ∃ (k : ℝ) (y : ℝ → ColState r 2 z), 0 < k ∧
    (∀ T, Spec.Solves colComp (fun t u => m.rhs P 1 ![8 - β * Real.sin (k * t), 1, 2 + β * Real.sin (k * t)] u) 0 T y) ∧
    Spec.IonWithin ![8, 1, 2] q 0 (y 0) ∧ ∀ t, 0 ≤ t → |y t 0 2 (Fin.last z) - (2 + β * Real.sin (k * t))| ≤ η := by
  obtain ⟨P, jac, q, Q, hM, hq, hP1, -⟩ := ion_column_ex m r z A hA
  have hc : ∀ i, 0 < (![8, 1, 2] : Fin 3 → ℝ) i := fun i => by fin_cases i <;> simp
  obtain ⟨δ1, hδ1, hrun⟩ := c274_run hM hc hq
  obtain ⟨δ2, C, ω, hδ2, hC, hω, hf⟩ := c279_effluent hM hc hq
  set β := min δ1 δ2 with hβ
  have hβ0 : 0 < β := lt_min hδ1 hδ2
  refine ⟨P, q, β, hP1, hβ0, fun η hη => ?_⟩
  set k := η / (C * β) with hk
  have hk0 : 0 < k := by positivity
  set s : ℝ → Fin 3 → ℝ := fun t => ![8 - β * Real.sin (k * t), 1, 2 + β * Real.sin (k * t)] with hs
  have hsc : Continuous s := by
    refine continuous_pi fun i => ?_
    fin_cases i
    · show Continuous fun t => 8 - β * Real.sin (k * t)
      fun_prop
    · exact continuous_const
    · show Continuous fun t => 2 + β * Real.sin (k * t)
      fun_prop
  have hst : ∀ t, ∑ i, s t i = ∑ i, (![8, 1, 2] : Fin 3 → ℝ) i := fun t => by
    rw [Fin.sum_univ_three, Fin.sum_univ_three]
    simp [s]
    ring
  have hsd : ∀ t i, |s t i - (![8, 1, 2] : Fin 3 → ℝ) i| ≤ β := fun t i => by
    have h1 : |β * Real.sin (k * t)| ≤ β := by
      rw [abs_mul, abs_of_pos hβ0]
      nlinarith [Real.abs_sin_le_one (k * t)]
    fin_cases i
    · simpa [s] using h1
    · simpa [s] using hβ0.le
    · simpa [s] using h1
  have hlip : ∀ a b i, |s a i - s b i| ≤ β * k * |a - b| := fun a b i => by
    have h1 : |β * Real.sin (k * a) - β * Real.sin (k * b)| ≤ β * k * |a - b| := by
      rw [← mul_sub, abs_mul, abs_of_pos hβ0, mul_assoc]
      refine mul_le_mul_of_nonneg_left ?_ hβ0.le
      have h1 := Real.abs_sin_sub_sin_le (k * a) (k * b)
      rwa [← mul_sub, abs_mul, abs_of_pos hk0] at h1
    fin_cases i
    · show |8 - β * Real.sin (k * a) - (8 - β * Real.sin (k * b))| ≤ _
      rw [sub_sub_sub_cancel_left, abs_sub_comm]
      exact h1
    · show |(1 : ℝ) - 1| ≤ _
      rw [sub_self, abs_zero]
      positivity
    · show |2 + β * Real.sin (k * a) - (2 + β * Real.sin (k * b))| ≤ _
      rw [add_sub_add_left_eq_sub]
      exact h1
  have hxs : msum (0 : MBed (MBead 3 r) 3 z) = 0 := by
    refine Prod.ext (funext fun _ => funext fun k => ?_) (funext fun w => Prod.ext (funext fun _ => funext fun k => ?_) (funext fun _ => ?_)) <;>
      simp [msum]
  set u := ionState ![8, 1, 2] q ![8, 1, 2] (0 : MBed (MBead 3 r) 3 z) with hu
  have hT : Spec.Totals (∑ i, (![8, 1, 2] : Fin 3 → ℝ) i) Q u := ionState_totals hq.total _ hxs
  have hw : ∀ e, 0 ≤ e → Spec.IonWithin ![8, 1, 2] q e u := fun e he =>
    (ionExc_norm he).1 (by rw [ionExc_state, norm_zero]; exact he)
  obtain ⟨y, hy0, hy, -⟩ := hrun s hsc hst (fun t i => (hsd t i).trans (min_le_left _ _)) u hT (hw _ hδ1.le)
  have hl : Fin.last z ≠ 0 := by
    intro h
    have := congrArg Fin.val h
    simp at this
    omega
  refine ⟨k, y, hk0, hy, by rw [hy0]; exact hw 0 le_rfl, fun t ht => ?_⟩
  have := hf 0 0 (β * k) t s y (hy t) (fun t _ => hst t) (fun t _ i => (hsd t i).trans (min_le_right _ _)) (fun a _ b _ i => hlip a b i)
    (by positivity) (by rw [hy0]; exact hT) (by rw [hy0]; exact hw 0 le_rfl) hδ2.le (fun i => by
      fin_cases i <;> simp [s]) hδ2.le t ⟨ht, le_rfl⟩ 2 (Fin.last z) hl
  refine this.trans (le_of_eq ?_)
  rw [hk]
  field_simp
  simp

end WTM
