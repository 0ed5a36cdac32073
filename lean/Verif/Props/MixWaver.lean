import Verif.Lemmas.MultiPush
import Verif.Props.GacMixture

/-! Property C273: near exhaustion a carbon column with compounds in competition follows wavering influents with a bounded gain, forgets its
start, and tends to exhaustion when the influents settle. -/
set_option autoImplicit false
namespace WTM
open BigOperators Set Topology Filter

section
variable {n r z : ℕ}

variable {D : GacDim n r z} {jac : Fin r → ℝ} {c fo fa q : Fin n → ℝ}

/-- The rates of the code under influents `s`. -/
theorem mix_rates_in [NeZero n] (h : Spec.MixSetting D jac c fo fa q) (s : Fin n → ℝ) (u : GacState n r z) :
    ((fun i k => gacRhs D s fo fa u i k.castSucc 0, fun w => (fun i k => gacRhs D s fo fa u i k.castSucc w.succ,
      fun i => gacRhs D s fo fa u i (Fin.last (r + 1)) w.succ)) : MBed (MBead n r) n z) =
    mbedRhs (mixPt D c fo fa q) D.dg1 D.az (mixExc c q u) +
      (mbedPush (fun i => D.stdv i * D.dgI i) D.dg1 D.az D.wr).toContinuousLinearMap (s - c) := by
  rw [← mix_rates h]
  refine Prod.ext (funext fun i => funext fun k => ?_) (funext fun w => Prod.ext (funext fun i => funext fun k => ?_) (funext fun i => ?_))
  · simp only [Prod.fst_add, Pi.add_apply, LinearMap.coe_toContinuousLinearMap', mbedPush, LinearMap.coe_mk, AddHom.coe_mk, gacRhs_bead, gacBead,
      if_true, Pi.sub_apply]
    by_cases hk : k = Fin.last r
    · simp only [hk, if_true]
      ring
    · simp only [if_neg hk]
      ring
  · simp [mbedPush, gacRhs_bead, gacBead]
  · simp only [Prod.snd_add, Pi.add_apply, LinearMap.coe_toContinuousLinearMap', mbedPush, LinearMap.coe_mk, AddHom.coe_mk, gacRhs_liq, gacLiq,
      Fin.succ_ne_zero, if_false, Pi.sub_apply]
    ring

theorem mix_deriv_in [NeZero n] (h : Spec.MixSetting D jac c fo fa q) {T : ℝ} {s : ℝ → Fin n → ℝ} {y : ℝ → GacState n r z}
    (hy : Spec.Solves gacComp (fun t u => gacRhs D (s t) fo fa u) 0 T y) : ∀ t ∈ Icc 0 T,
      HasDerivWithinAt (fun s => mixExc c q (y s)) (mbedRhs (mixPt D c fo fa q) D.dg1 D.az (mixExc c q (y t)) +
        (mbedPush (fun i => D.stdv i * D.dgI i) D.dg1 D.az D.wr).toContinuousLinearMap (s t - c)) (Icc 0 T) t := by
  intro t ht
  rw [← mix_rates_in h]
  refine HasDerivWithinAt.prodMk (hasDerivWithinAt_pi.2 fun i => hasDerivWithinAt_pi.2 fun k => ?_) (hasDerivWithinAt_pi.2 fun w =>
    HasDerivWithinAt.prodMk (hasDerivWithinAt_pi.2 fun i => hasDerivWithinAt_pi.2 fun k => ?_) (hasDerivWithinAt_pi.2 fun i => ?_))
  · exact (hy t ht (i, k.castSucc, 0)).sub_const _
  · exact (hy t ht (i, k.castSucc, w.succ)).sub_const _
  · exact (hy t ht (i, Fin.last (r + 1), w.succ)).sub_const _

/-- Specification: all waters below the inlet tend to `c`, all loadings to `q`, compound by compound. -/
def Spec.MixTends (c q : Fin n → ℝ) (y : ℝ → GacState n r z) : Prop :=
  (∀ i w, w ≠ 0 → Tendsto (fun t => y t i (Fin.last (r + 1)) w) atTop (nhds (c i))) ∧
    ∀ i (k : Fin (r + 1)) w, Tendsto (fun t => y t i k.castSucc w) atTop (nhds (q i))

theorem mixTends_of {y : ℝ → GacState n r z} (h : Tendsto (fun t => mixExc c q (y t)) atTop (𝓝 0)) : Spec.MixTends c q y := by
  have key : ∀ (f : ℝ → ℝ) (b : ℝ), (∀ t, |f t - b| ≤ ‖mixExc c q (y t)‖) → Tendsto f atTop (nhds b) := fun f b hf => by
    rw [tendsto_iff_dist_tendsto_zero]
    exact squeeze_zero (fun t => dist_nonneg) (fun t => by rw [Real.dist_eq]; exact hf t) (tendsto_zero_iff_norm_tendsto_zero.1 h)
  have hw := fun t => (mixExc_norm (norm_nonneg (mixExc c q (y t)))).1 le_rfl
  exact ⟨fun i w hw0 => key _ _ fun t => (hw t).2 i w hw0, fun i k w => key _ _ fun t => (hw t).1 i k w⟩

/-- Both bounds with the same constants. -/
theorem mix_waver [NeZero n] (h : Spec.MixSetting D jac c fo fa q) : ∃ δ C ω : ℝ, 0 < δ ∧ 0 < C ∧ 0 < ω ∧
    (∀ (ε β T : ℝ) (s : ℝ → Fin n → ℝ) (y : ℝ → GacState n r z), Spec.Solves gacComp (fun t u => gacRhs D (s t) fo fa u) 0 T y →
      (∀ t ∈ Icc 0 T, ∀ i, |s t i - c i| ≤ β) → Spec.MixWithin c q ε (y 0) → ε ≤ δ → β ≤ δ →
      ∀ t ∈ Icc 0 T, Spec.MixWithin c q (C * (Real.exp (-(ω * t)) * ε + β)) (y t)) ∧
    ∀ (s : ℝ → Fin n → ℝ) (y : ℝ → GacState n r z), (∀ T, Spec.Solves gacComp (fun t u => gacRhs D (s t) fo fa u) 0 T y) →
      (∀ t, 0 ≤ t → ∀ i, |s t i - c i| ≤ δ) → Spec.MixWithin c q δ (y 0) → (∀ i, Tendsto (fun t => s t i) atTop (𝓝 (c i))) →
      Spec.MixTends c q y := by
  obtain ⟨L, e, H, ℓ, lam, he, hL⟩ := mix_energy h
  obtain ⟨G, hG⟩ := axial_form h.axial
  set P := (mbedPush (fun i => D.stdv i * D.dgI i) D.dg1 D.az D.wr).toContinuousLinearMap with hP
  obtain ⟨C0, ω0, hC0, hω0, hM⟩ := mbed_settle (z := z) he (axial_moves h.axial) hG h.flow
  obtain ⟨δ, C, ω, hδ, hC, hω, h1, h2⟩ := near_waver hω0 hC0 hM (mbed_small (κ := D.dg1) (A := D.az) hL (ptRhs_zero (mix_zero h))) (norm_nonneg P)
  have hpush : ∀ (β : ℝ) (s : Fin n → ℝ), 0 ≤ β → (∀ i, |s i - c i| ≤ β) → ‖P (s - c)‖ ≤ ‖P‖ * β := fun β s hβ hs =>
    (P.le_opNorm _).trans (mul_le_mul_of_nonneg_left ((pi_norm_le_iff_of_nonneg hβ).2 fun i => hs i) (norm_nonneg P))
  refine ⟨δ, C, ω, hδ, hC, hω, fun ε β T s y hy hs h0 hε hβ t ht => ?_, fun s y hy hs h0 hlim => ?_⟩
  · have hε0 : 0 ≤ ε := (abs_nonneg _).trans (h0.1 0 0 0)
    have hβ0 : 0 ≤ β := (abs_nonneg _).trans (hs t ht 0)
    have hn := (mixExc_norm hε0).2 h0
    have := h1 (fun t => mixExc c q (y t)) (fun t => P (s t - c)) T β (mix_deriv_in h hy) hβ0 (fun t ht => hpush β (s t) hβ0 (hs t ht))
      (hn.trans hε) hβ t ht
    refine (mixExc_norm (by positivity)).1 (this.trans (mul_le_mul_of_nonneg_left (add_le_add ?_ le_rfl) hC.le))
    exact mul_le_mul_of_nonneg_left hn (Real.exp_pos _).le
  · refine mixTends_of (h2 _ (fun t => P (s t - c)) (fun T => mix_deriv_in h (hy T)) (fun t ht => hpush δ (s t) hδ.le (hs t ht))
      ((mixExc_norm hδ.le).2 h0) ?_)
    have h3 : Tendsto (fun t => s t - c) atTop (𝓝 0) := tendsto_pi_nhds.2 fun i => by simpa using (hlim i).sub_const (c i)
    have h4 := (P.continuous.tendsto 0).comp h3
    rwa [map_zero] at h4

/-- C273. There are constants such that, while all influents stay within `β` of `c` and the start is within `ε` of exhaustion by `c`, both at
most `δ`, all waters and loadings of all compounds stay within `C (exp (-ωt) ε + β)` of it. -/
theorem c273_gain [NeZero n] (h : Spec.MixSetting D jac c fo fa q) : ∃ δ C ω : ℝ, 0 < δ ∧ 0 < C ∧ 0 < ω ∧
    ∀ (ε β T : ℝ) (s : ℝ → Fin n → ℝ) (y : ℝ → GacState n r z), Spec.Solves gacComp (fun t u => gacRhs D (s t) fo fa u) 0 T y →
      (∀ t ∈ Icc 0 T, ∀ i, |s t i - c i| ≤ β) → Spec.MixWithin c q ε (y 0) → ε ≤ δ → β ≤ δ →
      ∀ t ∈ Icc 0 T, Spec.MixWithin c q (C * (Real.exp (-(ω * t)) * ε + β)) (y t) := by
  obtain ⟨δ, C, ω, hδ, hC, hω, h1, -⟩ := mix_waver h
  exact ⟨δ, C, ω, hδ, hC, hω, h1⟩

/-- C273. A column that starts near exhaustion by `c`, under influents that stay near `c` and tend to it, tends to exhaustion. -/
theorem c273_tends [NeZero n] (h : Spec.MixSetting D jac c fo fa q) : ∃ δ : ℝ, 0 < δ ∧ ∀ (s : ℝ → Fin n → ℝ) (y : ℝ → GacState n r z),
    (∀ T, Spec.Solves gacComp (fun t u => gacRhs D (s t) fo fa u) 0 T y) → (∀ t, 0 ≤ t → ∀ i, |s t i - c i| ≤ δ) →
    Spec.MixWithin c q δ (y 0) → (∀ i, Tendsto (fun t => s t i) atTop (𝓝 (c i))) → Spec.MixTends c q y := by
  obtain ⟨δ, -, -, hδ, -, -, -, h2⟩ := mix_waver h
  exact ⟨δ, hδ, h2⟩

theorem mix_shift_in {D : GacDim n r z} {s : ℝ → Fin n → ℝ} {y : ℝ → GacState n r z} {s0 T : ℝ} (hs : 0 ≤ s0)
    (hy : Spec.Solves gacComp (fun t u => gacRhs D (s t) fo fa u) 0 (s0 + T) y) :
    Spec.Solves gacComp (fun t u => gacRhs D (s (s0 + t)) fo fa u) 0 T (fun t => y (s0 + t)) := by
  intro t ht a
  have h1 := hy (s0 + t) ⟨by linarith [ht.1], by linarith [ht.2]⟩ a
  have h2 : HasDerivWithinAt (fun τ : ℝ => s0 + τ) 1 (Icc 0 T) t := ((hasDerivAt_id t).const_add s0).hasDerivWithinAt
  have h3 := HasDerivWithinAt.comp (h := fun τ : ℝ => s0 + τ) t h1 h2 (fun τ hτ => ⟨by linarith [hτ.1], by linarith [hτ.2]⟩)
  rw [mul_one] at h3
  exact h3

/-- C273. Whatever its start and the past of influents that settle at `c`, a run for all time either keeps away from exhaustion by `c` from
some time on, by `δ` in some loading or concentration, or tends to it. -/
theorem c273_either [NeZero n] (h : Spec.MixSetting D jac c fo fa q) : ∃ δ : ℝ, 0 < δ ∧ ∀ (s : ℝ → Fin n → ℝ) (y : ℝ → GacState n r z),
    (∀ T, Spec.Solves gacComp (fun t u => gacRhs D (s t) fo fa u) 0 T y) → (∀ i, Tendsto (fun t => s t i) atTop (𝓝 (c i))) →
    (∃ s0, ∀ t, s0 ≤ t → ¬ Spec.MixWithin c q δ (y t)) ∨ Spec.MixTends c q y := by
  obtain ⟨δ, hδ, h2⟩ := c273_tends h
  refine ⟨δ, hδ, fun s y hy hlim => ?_⟩
  obtain ⟨s1, hs1⟩ := eventually_atTop.1 (eventually_all.2 fun i => (hlim i).eventually (Metric.closedBall_mem_nhds (c i) hδ))
  by_cases hw : ∃ s0, max 0 s1 ≤ s0 ∧ Spec.MixWithin c q δ (y s0)
  · obtain ⟨s0, hs0, hw⟩ := hw
    right
    have h00 : 0 ≤ s0 := (le_max_left _ _).trans hs0
    have hsh : Tendsto (fun t : ℝ => t - s0) atTop atTop := tendsto_atTop_add_const_right _ (-s0) tendsto_id
    have hsh' : Tendsto (fun t : ℝ => s0 + t) atTop atTop := tendsto_atTop_add_const_left _ s0 tendsto_id
    have ht := h2 (fun t => s (s0 + t)) (fun t => y (s0 + t)) (fun T => mix_shift_in h00 (hy _)) (fun t ht i => by
      have := hs1 (s0 + t) (by have := le_max_right 0 s1; linarith) i
      rwa [Real.dist_eq] at this) (by rw [add_zero]; exact hw) (fun i => (hlim i).comp hsh')
    refine ⟨fun i w hw => ((ht.1 i w hw).comp hsh).congr fun t => ?_, fun i k w => ((ht.2 i k w).comp hsh).congr fun t => ?_⟩
    · show y (s0 + (t - s0)) _ _ _ = _
      rw [add_sub_cancel]
    · show y (s0 + (t - s0)) _ _ _ = _
      rw [add_sub_cancel]
  · left
    push Not at hw
    exact ⟨max 0 s1, hw⟩

/-- The entries of the water at the inlet never change. -/
theorem mix_inlet {D : GacDim n r z} {s : ℝ → Fin n → ℝ} {T : ℝ} {y : ℝ → GacState n r z}
    (hy : Spec.Solves gacComp (fun t u => gacRhs D (s t) fo fa u) 0 T y) (i : Fin n) : ∀ t ∈ Icc 0 T, y t i (Fin.last (r + 1)) 0 = y 0 i (Fin.last (r + 1)) 0 := by
  intro t ht
  refine constant_of_derivWithin_zero (f := fun s => y s i (Fin.last (r + 1)) 0) (a := 0) (b := T)
    (fun s hs => (hy s hs (i, Fin.last (r + 1), 0)).differentiableWithinAt) (fun τ hs => ?_) t ht
  have h3 := hy τ ⟨hs.1, hs.2.le⟩ (i, Fin.last (r + 1), 0)
  have h4 : gacComp (i, Fin.last (r + 1), 0) (gacRhs D (s τ) fo fa (y τ)) = 0 := by
    show gacRhs D (s τ) fo fa (y τ) i (Fin.last (r + 1)) 0 = 0
    rw [gacRhs_liq, gacLiq, if_pos rfl]
  beta_reduce at h3
  rw [h4] at h3
  exact h3.derivWithin (uniqueDiffOn_Icc (hs.1.trans_lt hs.2) τ ⟨hs.1, hs.2.le⟩)

/-- Runs of the excesses are runs of the column. -/
theorem mix_solves_in [NeZero n] (h : Spec.MixSetting D jac c fo fa q) (e : Fin n → ℝ) {s : ℝ → Fin n → ℝ} {T : ℝ} {x : ℝ → MBed (MBead n r) n z}
    (hx : ∀ t ∈ Icc 0 T, HasDerivWithinAt x (mbedRhs (mixPt D c fo fa q) D.dg1 D.az (x t) +
      (mbedPush (fun i => D.stdv i * D.dgI i) D.dg1 D.az D.wr).toContinuousLinearMap (s t - c)) (Icc 0 T) t) :
    Spec.Solves gacComp (fun t u => gacRhs D (s t) fo fa u) 0 T (fun t => mixState c q e (x t)) := by
  intro t ht a
  have h1 := hx t ht
  have h2 : x t = mixExc c q (mixState c q e (x t)) := (mixExc_state _ _).symm
  rw [h2, ← mix_rates_in h] at h1
  obtain ⟨i, a, w⟩ := a
  have p1 : HasDerivWithinAt (fun s => (x s).1) _ (Icc 0 T) t :=
    (ContinuousLinearMap.fst ℝ (MBead n r) (Fin z → MPt (MBead n r) n)).hasFDerivAt.comp_hasDerivWithinAt t h1
  have p2 : HasDerivWithinAt (fun s => (x s).2) _ (Icc 0 T) t :=
    (ContinuousLinearMap.snd ℝ (MBead n r) (Fin z → MPt (MBead n r) n)).hasFDerivAt.comp_hasDerivWithinAt t h1
  show HasDerivWithinAt (fun s => mixState c q e (x s) i a w)
    (gacRhs D (s t) fo fa (mixState c q e (x t)) i a w) (Icc 0 T) t
  refine Fin.lastCases ?_ (fun k => ?_) a
  · refine Fin.cases ?_ (fun w => ?_) w
    · rw [gacRhs_liq, gacLiq, if_pos rfl]
      refine (hasDerivWithinAt_const t (Icc 0 T) (e i)).congr (fun s _ => ?_) ?_ <;> simp [mixState]
    · have p3 : HasDerivWithinAt (fun s => ((x s).2 w).2) _ (Icc 0 T) t :=
        (ContinuousLinearMap.snd ℝ (MBead n r) (Fin n → ℝ)).hasFDerivAt.comp_hasDerivWithinAt t (hasDerivWithinAt_pi.1 p2 w)
      refine ((hasDerivWithinAt_pi.1 p3 i).add_const (c i)).congr (fun s _ => ?_) ?_ <;> simp [mixState]
  · refine Fin.cases ?_ (fun w => ?_) w
    · refine ((hasDerivWithinAt_pi.1 (hasDerivWithinAt_pi.1 p1 i) k).add_const (q i)).congr (fun s _ => ?_) ?_ <;> simp [mixState]
    · have p3 : HasDerivWithinAt (fun s => ((x s).2 w).1) _ (Icc 0 T) t :=
        (ContinuousLinearMap.fst ℝ (MBead n r) (Fin n → ℝ)).hasFDerivAt.comp_hasDerivWithinAt t (hasDerivWithinAt_pi.1 p2 w)
      refine ((hasDerivWithinAt_pi.1 (hasDerivWithinAt_pi.1 p3 i) k).add_const (q i)).congr (fun s _ => ?_) ?_ <;> simp [mixState]

/-- C273. Under influents that vary continuously near `c` there is a run for all time from every state near exhaustion, and exactly one. -/
theorem c273_run [NeZero n] (h : Spec.MixSetting D jac c fo fa q) : ∃ δ : ℝ, 0 < δ ∧ ∀ (s : ℝ → Fin n → ℝ),
    Continuous s → (∀ t i, |s t i - c i| ≤ δ) → ∀ u : GacState n r z, Spec.MixWithin c q δ u →
    ∃ y : ℝ → GacState n r z, y 0 = u ∧ (∀ T, Spec.Solves gacComp (fun t u => gacRhs D (s t) fo fa u) 0 T y) ∧
      ∀ T x, Spec.Solves gacComp (fun t u => gacRhs D (s t) fo fa u) 0 T x → x 0 = u → ∀ t ∈ Icc 0 T, x t = y t := by
  obtain ⟨L, e, H, ℓ, lam, he, hL⟩ := mix_energy h
  obtain ⟨G, hG⟩ := axial_form h.axial
  set P := (mbedPush (fun i => D.stdv i * D.dgI i) D.dg1 D.az D.wr).toContinuousLinearMap with hP
  obtain ⟨δ, hδ, hx⟩ := mbed_run_in (z := z) he (axial_moves h.axial) hG h.flow (ptRhs_smooth (mix_smooth h)) hL (ptRhs_zero (mix_zero h)) (norm_nonneg P)
  refine ⟨δ, hδ, fun s hs hsδ u hu => ?_⟩
  obtain ⟨x, hx0, hxd, hxu⟩ := hx (fun t => P (s t - c)) (P.continuous.comp (hs.sub continuous_const)) (fun t =>
    (P.le_opNorm _).trans (mul_le_mul_of_nonneg_left ((pi_norm_le_iff_of_nonneg hδ.le).2 fun i => hsδ t i) (norm_nonneg P)))
    (mixExc c q u) ((mixExc_norm hδ.le).2 hu)
  have hsol : ∀ T, Spec.Solves gacComp (fun t u => gacRhs D (s t) fo fa u) 0 T
      (fun t => mixState c q (fun i => u i (Fin.last (r + 1)) 0) (x t)) := fun T => mix_solves_in h _ (hxd T)
  refine ⟨_, ?_, hsol, fun T x' hx' h0 t ht => ?_⟩
  · rw [hx0]
    exact mixState_exc fun _ => rfl
  · have h1 := hxu T (fun s => mixExc c q (x' s)) (by beta_reduce; rw [h0]) (mix_deriv_in h hx') t ht
    have h2 : ∀ i, x' t i (Fin.last (r + 1)) 0 = u i (Fin.last (r + 1)) 0 := fun i => by rw [← h0]; exact mix_inlet hx' i t ht
    beta_reduce
    rw [← h1]
    exact (mixState_exc h2).symm

/-- A column with two compounds of different exponents and diffusivities. -/
theorem mix_setting_ex (r z : ℕ) (A : Fin (z + 1) → Fin (z + 1) → ℝ) (hA : Spec.AxialGrid z A) : ∃ (D : GacDim 2 r z) (jac : Fin r → ℝ),
    Spec.MixSetting D jac ![9 / 2, 81 / 32] 1 1 1 ∧ D.xn 0 = 1 / 2 ∧ D.xn 1 = 1 / 4 ∧ D.beds 1 = 5 * D.beds 0 ∧ D.az = A := by
  obtain ⟨jac, B, W, g⟩ := beadGrid_exists r
  let D : GacDim 2 r z := ⟨fun _ => 1 / 2, ![1 / 2, 1 / 4], ![1, 5], fun _ => 1, fun _ => 1, fun _ => 1, 3, W, B, A⟩
  have hD : Spec.MixSetting D jac ![9 / 2, 81 / 32] 1 1 1 := by
    have hx : ∀ i, 0 < (![1 / 2, 1 / 4] : Fin 2 → ℝ) i := by intro i; fin_cases i <;> norm_num
    refine ⟨fun _ => by norm_num [D], hx, fun _ => one_pos, fun _ => one_pos, by norm_num [D], g, hA, ?_, fun _ => one_pos, fun _ => one_pos, ?_, ?_⟩
    · intro i; fin_cases i <;> norm_num
    · have h5 := iast_formula (K := fun _ : Fin 2 => (1 / 2 : ℝ)) (ν := fun i => 1 / (![1 / 2, 1 / 4] : Fin 2 → ℝ) i)
        (q := fun _ => 1 / 2) (c := ![9 / 2, 81 / 32]) (fun _ => by norm_num) (fun i => one_div_pos.2 (hx i)) (fun _ => by norm_num) (j := 0) (by norm_num)
        (fun i => by
          fin_cases i
          · norm_num [Fin.sum_univ_two]
          · norm_num [Fin.sum_univ_two])
      simp only [one_div_one_div] at h5
      have e1 : (fun i => D.ym i * (1 : Fin 2 → ℝ) i) = fun _ => 1 / 2 := by funext i; simp [D]
      have e2 : (fun i => (![9 / 2, 81 / 32] : Fin 2 → ℝ) i / (1 : Fin 2 → ℝ) i) = ![9 / 2, 81 / 32] := by funext i; simp
      rw [e1, e2]
      exact h5
    · refine ⟨fun i => ?_, 1, ![0, 7 / 10], fun i => ?_, ?_, fun i => ?_⟩
      · fin_cases i <;> norm_num [D]
      · fin_cases i <;> norm_num
      · norm_num [Fin.sum_univ_two]
      · fin_cases i <;> norm_num [D, Spec.response, Fin.sum_univ_two]
  exact ⟨D, jac, hD, rfl, rfl, by norm_num [D], rfl⟩

/-- Columns as in C273 exist for any numbers of nodes, with two compounds of different exponents and diffusivities, and influents that waver
for ever or settle without having been at `c`. -/
example (r z : ℕ) (A : Fin (z + 1) → Fin (z + 1) → ℝ) (hA : Spec.AxialGrid z A) : ∃ (D : GacDim 2 r z) (jac : Fin r → ℝ) (c q : Fin 2 → ℝ),
    Spec.MixSetting D jac c 1 1 q ∧ D.xn 0 = 1 / 2 ∧ D.xn 1 = 1 / 4 ∧ D.beds 1 = 5 * D.beds 0 ∧ D.az = A ∧
    (∃ (δ K : ℝ), 0 < δ ∧ 0 < K ∧ ∀ β, 0 < β → β ≤ δ → ∃ y : ℝ → GacState 2 r z,
      (∀ T, Spec.Solves gacComp (fun t u => gacRhs D (fun i => c i + β * Real.sin t) 1 1 u) 0 T y) ∧
      ∀ t, 0 ≤ t → ∀ i, |y t i (Fin.last (r + 1)) (Fin.last z) - c i| ≤ K * β) ∧
    ∃ (δ : ℝ) (y : ℝ → GacState 2 r z), 0 < δ ∧
      (∀ T, Spec.Solves gacComp (fun t u => gacRhs D (fun i => c i + δ * Real.exp (-|t|)) 1 1 u) 0 T y) ∧
      ∀ i, Tendsto (fun t => y t i (Fin.last (r + 1)) (Fin.last z)) atTop (nhds (c i)) := by
  have hlast : Fin.last z ≠ 0 := fun e => by have := congrArg Fin.val e; have := axial_pos hA; simp at *; omega
  obtain ⟨D, jac, hD, hx0, hx1, hb, hz⟩ := mix_setting_ex r z A hA
  have hu : ∀ ε : ℝ, 0 ≤ ε → Spec.MixWithin (r := r) (z := z) ![9 / 2, 81 / 32] 1 ε
      (fun i a _ => if a = Fin.last (r + 1) then (![9 / 2, 81 / 32] : Fin 2 → ℝ) i else 1) := by
    intro ε hε
    refine ⟨fun i k w => ?_, fun i w _ => ?_⟩
    · beta_reduce
      rw [if_neg (Fin.castSucc_lt_last k).ne]
      simpa using hε
    · beta_reduce
      rw [if_pos rfl, sub_self, abs_zero]
      exact hε
  obtain ⟨δ', hδ', hr⟩ := c273_run hD
  refine ⟨D, jac, _, _, hD, hx0, hx1, hb, hz, ?_, ?_⟩
  · obtain ⟨δ, C, ω, hδ, hC, hω, hx⟩ := c273_gain hD
    refine ⟨min δ δ', C, lt_min hδ hδ', hC, fun β hβ hβδ => ?_⟩
    have hsin : ∀ t i, |(![9 / 2, 81 / 32] : Fin 2 → ℝ) i + β * Real.sin t - (![9 / 2, 81 / 32] : Fin 2 → ℝ) i| ≤ β := fun t i => by
      rw [add_sub_cancel_left, abs_mul, abs_of_pos hβ]
      exact mul_le_of_le_one_right hβ.le (Real.abs_sin_le_one t)
    obtain ⟨y, hy0, hy, -⟩ := hr (fun t i => (![9 / 2, 81 / 32] : Fin 2 → ℝ) i + β * Real.sin t) (by fun_prop)
      (fun t i => (hsin t i).trans (hβδ.trans (min_le_right _ _))) _ (hu δ' hδ'.le)
    refine ⟨y, hy, fun t ht i => ?_⟩
    have := (hx 0 β t _ y (hy t) (fun s _ => hsin s) (by rw [hy0]; exact hu 0 le_rfl) hδ.le (hβδ.trans (min_le_left _ _)) t ⟨ht, le_rfl⟩).2 i _ hlast
    rwa [mul_zero, zero_add] at this
  · obtain ⟨δ, hδ, hx⟩ := c273_tends hD
    have hm : 0 < min δ δ' := lt_min hδ hδ'
    have hexp : ∀ t i, |(![9 / 2, 81 / 32] : Fin 2 → ℝ) i + min δ δ' * Real.exp (-|t|) - (![9 / 2, 81 / 32] : Fin 2 → ℝ) i| ≤ min δ δ' := fun t i => by
      rw [add_sub_cancel_left, abs_mul, abs_of_pos hm, abs_of_pos (Real.exp_pos _)]
      exact mul_le_of_le_one_right hm.le (Real.exp_le_one_iff.2 (by have := abs_nonneg t; linarith))
    obtain ⟨y, hy0, hy, -⟩ := hr (fun t i => (![9 / 2, 81 / 32] : Fin 2 → ℝ) i + min δ δ' * Real.exp (-|t|)) (by fun_prop)
      (fun t i => (hexp t i).trans (min_le_right _ _)) _ (hu δ' hδ'.le)
    refine ⟨min δ δ', y, hm, hy, fun i => (hx _ y hy (fun t _ i => (hexp t i).trans (min_le_left _ _)) (by rw [hy0]; exact hu δ hδ.le) (fun i => ?_)).1 i _ hlast⟩
    have h1 : Tendsto (fun t : ℝ => Real.exp (-|t|)) atTop (𝓝 0) := Real.tendsto_exp_neg_atTop_nhds_zero.comp tendsto_abs_atTop_atTop
    simpa using (h1.const_mul (min δ δ')).const_add ((![9 / 2, 81 / 32] : Fin 2 → ℝ) i)

end
end WTM
