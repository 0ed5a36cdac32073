import Verif.Props.ColumnInput

/-! Property C269: an influent that changes at a steady rate comes out of a column without selectivity one time scale later. -/
set_option autoImplicit false
namespace WTM
open BigOperators Set

section
variable {r p z : ℕ} {m : ColModel} {P : ColParams r p z} {jac : Fin r → ℝ} {tH : ℝ} {Q : ℝ}

/-- Linear systems that settle can be solved for any push. -/
theorem settle_onto {E : Type} [NormedAddCommGroup E] [NormedSpace ℝ E] [FiniteDimensional ℝ E] (M : E →L[ℝ] E) {C ω : ℝ} (hω : 0 < ω)
    (hM : ∀ (x : ℝ → E) (T : ℝ), (∀ t ∈ Icc 0 T, HasDerivWithinAt x (M (x t)) (Icc 0 T) t) →
      ∀ t ∈ Icc 0 T, ‖x t‖ ≤ C * Real.exp (-(ω * t)) * ‖x 0‖) (s : E) : ∃ x, M x = s := by
  have hinj : Function.Injective (M : E →ₗ[ℝ] E) := by
    refine (injective_iff_map_eq_zero _).2 fun v hv => ?_
    have hv' : M v = 0 := hv
    have h1 : ∀ t, 0 ≤ t → ‖v‖ ≤ C * Real.exp (-(ω * t)) * ‖v‖ := fun t ht =>
      hM (fun _ => v) t (fun s _ => by rw [hv']; exact hasDerivWithinAt_const _ _ _) t ⟨ht, le_rfl⟩
    have hlim : Filter.Tendsto (fun t => C * Real.exp (-(ω * t)) * ‖v‖) Filter.atTop (nhds 0) := by
      have h1 : Filter.Tendsto (fun t => ω * t) Filter.atTop Filter.atTop := Filter.tendsto_id.const_mul_atTop hω
      have h3 := ((Real.tendsto_exp_neg_atTop_nhds_zero.comp h1).const_mul C).mul_const ‖v‖
      simpa using h3
    have h2 : ‖v‖ ≤ 0 := by
      refine ge_of_tendsto hlim ?_
      filter_upwards [Filter.eventually_ge_atTop 0] with t ht
      exact h1 t ht
    exact norm_le_zero_iff.1 h2
  exact LinearMap.injective_iff_surjective.1 hinj s

/-- How far each ion lags behind, when the ions change at the rates `b` and `U` is the lag per rate. -/
def lagState (b : Fin (p + 1) → ℝ) (U : ColState r p z) : ColState r p z :=
  fun a i w => if i = 0 then -∑ j : Fin p, b j.succ * U a j.succ w else b i * U a i w

theorem lagState_sum (b : Fin (p + 1) → ℝ) (U : ColState r p z) (a : Fin (r + 2)) (w : Fin (z + 1)) : ∑ i, lagState b U a i w = 0 := by
  rw [Fin.sum_univ_succ]
  simp [lagState, Fin.succ_ne_zero]

/-- A run that follows its influent with a fixed lag. -/
noncomputable def rampRun (c0 b : Fin (p + 1) → ℝ) (Q : ℝ) (U : ColState r p z) (t : ℝ) : ColState r p z :=
  fun a i w => if a = 0 ∧ w = 0 then 0 else Spec.exhausted (fun i => c0 i + t * b i) Q a i w - lagState b U a i w

theorem rampRun_totals {CT : ℝ} (hC : 0 < CT) {c0 b : Fin (p + 1) → ℝ} (hc : ∑ i, c0 i = CT) (hb : ∑ i, b i = 0) (U : ColState r p z) (t : ℝ) :
    Spec.Totals CT Q (rampRun c0 b Q U t) := by
  have hs : ∑ i, (c0 i + t * b i) = CT := by rw [Finset.sum_add_distrib, ← Finset.mul_sum, hb, hc]; ring
  have hx := exhausted_totals (r := r) (z := z) (Q := Q) (cin := fun i => c0 i + t * b i) (by rw [hs]; exact hC)
  refine ⟨fun w hw => ?_, fun k w => ?_⟩
  · simp only [rampRun, hw, and_false, if_false]
    rw [Finset.sum_sub_distrib, lagState_sum, hx.water w hw, hs, sub_zero]
  · simp only [rampRun, Fin.succ_ne_zero, false_and, if_false]
    rw [Finset.sum_sub_distrib, lagState_sum, hx.beads, sub_zero]

/-- The lag exists. -/
theorem ramp_exists (h : Spec.PlainColumn m P jac tH) (hz : Spec.AxialGrid z P.Az) {CT : ℝ} (hC : 0 < CT) (hQ : 0 < Q) :
    ∃ U : ColState r p z, ∀ (c0 b : Fin (p + 1) → ℝ), ∑ i, c0 i = CT → ∑ i, b i = 0 →
      ∀ T, Spec.Solves colComp (fun t u => m.rhs P tH (fun i => c0 i + t * b i) u) 0 T (rampRun c0 b Q U) := by
  have hA := axial_moves hz
  obtain ⟨G, hG⟩ := axial_form hz
  have ha : 0 < CT / Q := div_pos hC hQ
  have hb := h.size
  have hE1 : 0 < 1 - P.EBED := sub_pos.2 h.bed.2
  have hE0 := h.bed.1
  have htm := h.time
  have hv := h.flow.1
  have hL := h.flow.2
  have hμ : 0 < 3 * (1 - P.EBED) / P.EBED := by positivity
  have hκ : 0 < P.v * tH / (P.L * P.EBED) := by positivity
  have hf : ∀ i, i ≠ 0 → 0 < tH * P.kL i / P.rb := fun i hi => by
    have := (h.rates i hi).2
    positivity
  set M : Fin (p + 1) → ColExc r z →L[ℝ] ColExc r z := fun i => colCL (CT / Q) (plainBeta m P tH (CT / Q) i)
    (tH * P.kL i / P.rb) (3 * (1 - P.EBED) / P.EBED) (P.v * tH / (P.L * P.EBED)) P.Az P.Br P.Wr with hM
  set M0 : Fin (p + 1) → (Fin (r + 1) → ℝ) →L[ℝ] (Fin (r + 1) → ℝ) := fun i => inletCL (CT / Q) (plainBeta m P tH (CT / Q) i)
    (tH * P.kL i / P.rb) P.Br P.Wr with hM0
  have hX : ∀ i, ∃ x, i ≠ 0 → M i x = -fullExc (CT / Q) := by
    intro i
    by_cases hi : i = 0
    · exact ⟨0, fun h => absurd hi h⟩
    · obtain ⟨C1, ω1, -, hω1, h1⟩ := column_settle h.grid hA hG ha (plainBeta_pos h ha hi) (hf _ hi) hμ hκ
      obtain ⟨x, hx⟩ := settle_onto (M i) hω1 h1 (-fullExc (CT / Q))
      exact ⟨x, fun _ => hx⟩
  have hI : ∀ i, ∃ x, i ≠ 0 → M0 i x = -fun _ => 1 / (CT / Q) := by
    intro i
    by_cases hi : i = 0
    · exact ⟨0, fun h => absurd hi h⟩
    · obtain ⟨C1, ω1, -, hω1, h1⟩ := inlet_settle h.grid ha (plainBeta_pos h ha hi) (hf _ hi)
      obtain ⟨x, hx⟩ := settle_onto (M0 i) hω1 h1 (-fun _ => 1 / (CT / Q))
      exact ⟨x, fun _ => hx⟩
  choose X hX using hX
  choose I hI using hI
  let U : ColState r p z := fun a i w => Fin.cases (Fin.cases 0 (fun w' => (X i w').2) w)
    (fun k => Fin.cases (I i k) (fun w' => (X i w').1 k) w) a
  refine ⟨U, fun c0 b hc hbs T t _ => ?_⟩
  set cin : Fin (p + 1) → ℝ := fun i => c0 i + t * b i with hcin
  have hs : ∑ i, cin i = CT := by rw [hcin, Finset.sum_add_distrib, ← Finset.mul_sum, hbs, hc]; ring
  have htot : Spec.Totals (∑ i, cin i) Q (rampRun c0 b Q U t) := by rw [hs]; exact rampRun_totals hC hc hbs U t
  have hsc : ∀ t', ∑ i, (c0 i + t' * b i) = CT := fun t' => by rw [Finset.sum_add_distrib, ← Finset.mul_sum, hbs, hc]; ring
  -- the slope of the run
  have hslope : ∀ a i w, HasDerivAt (fun s => rampRun c0 b Q U s a i w)
      (if a = 0 then (if w = 0 then 0 else b i) else Q / CT * b i) t := by
    intro a i w
    have d : HasDerivAt (fun s => c0 i + s * b i) (b i) t := by
      have := ((hasDerivAt_id t).mul_const (b i)).const_add (c0 i)
      simpa using this
    unfold rampRun Spec.exhausted
    by_cases ha0 : a = 0
    · by_cases hw : w = 0
      · simp only [ha0, hw, and_self, if_true]
        exact hasDerivAt_const _ _
      · simp only [ha0, hw, and_false, if_true, if_false]
        exact d.sub_const _
    · simp only [ha0, false_and, if_false, hsc]
      have := ((d.const_mul Q).div_const CT).sub_const (lagState b U a i w)
      refine this.congr_deriv ?_
      ring
  have hset : ∀ (c : Fin (p + 1) → ℝ) (u : ColState r p z) i (w : Fin z), setInlet u c 0 i w.succ = u 0 i w.succ := by
    intro c u i w
    unfold setInlet
    rw [if_neg]
    rintro ⟨-, h⟩
    exact Fin.succ_ne_zero w h
  have hrate : ∀ i, i ≠ 0 → ∀ a w, m.rhs P tH cin (rampRun c0 b Q U t) a i w = if a = 0 then (if w = 0 then 0 else b i) else Q / CT * b i := by
    intro i hi a w
    have hr := plain_rates h hA (by rw [hs]; exact hC) hQ htot hi
    have x1 : (fun w : Fin z => excAt cin Q i (rampRun c0 b Q U t) w.succ) = -(b i • X i) := by
      funext w
      refine Prod.ext (funext fun k => ?_) ?_
      · show rampRun c0 b Q U t k.succ i w.succ - Q * cin i / ∑ j, cin j = -(b i * (X i w).1 k)
        simp only [rampRun, Fin.succ_ne_zero, false_and, if_false, Spec.exhausted, lagState, if_neg hi]
        rw [hs]
        show Q * cin i / CT - b i * (X i w).1 k - Q * cin i / CT = _
        ring
      · show setInlet (rampRun c0 b Q U t) cin 0 i w.succ - cin i = -(b i * (X i w).2)
        rw [hset]
        simp only [rampRun, Fin.succ_ne_zero, and_false, if_false, Spec.exhausted, lagState, if_neg hi, if_true]
        show cin i - b i * (X i w).2 - cin i = _
        ring
    have x2 : (excAt cin Q i (rampRun c0 b Q U t) 0).1 = -(b i • I i) := by
      funext k
      show rampRun c0 b Q U t k.succ i 0 - Q * cin i / ∑ j, cin j = -(b i * I i k)
      simp only [rampRun, Fin.succ_ne_zero, false_and, if_false, Spec.exhausted, lagState, if_neg hi]
      rw [hs]
      show Q * cin i / CT - b i * I i k - Q * cin i / CT = _
      ring
    rw [x1, x2, hs, map_neg, map_smul, map_neg, map_smul] at hr
    have e1 := hX i hi
    have e2 := hI i hi
    simp only [hM] at e1
    simp only [hM0] at e2
    rw [e1, e2, smul_neg, neg_neg, smul_neg, neg_neg] at hr
    refine Fin.cases ?_ (fun k => ?_) a
    · refine Fin.cases ?_ (fun w' => ?_) w
      · simp only [rhs_eq, assemble_liq, if_true]
      · rw [if_pos rfl, if_neg (Fin.succ_ne_zero w')]
        have := congrArg Prod.snd (congrFun hr.1 w')
        simpa [fullExc] using this
    · rw [if_neg (Fin.succ_ne_zero k)]
      refine Fin.cases ?_ (fun w' => ?_) w
      · have := congrFun hr.2 k
        beta_reduce at this
        rw [this]
        show b i * (1 / (CT / Q)) = _
        field_simp
      · have := congrFun (congrArg Prod.fst (congrFun hr.1 w')) k
        refine this.trans ?_
        show b i * (1 / (CT / Q)) = _
        field_simp
  rintro ⟨a, i, w⟩
  show HasDerivWithinAt (fun s => rampRun c0 b Q U s a i w) (m.rhs P tH cin (rampRun c0 b Q U t) a i w) (Icc 0 T) t
  refine (HasDerivAt.hasDerivWithinAt (hslope a i w)).congr_deriv ?_
  by_cases hi : i = 0
  · rw [hi, first_of_others (plain_sums hA htot a w)]
    simp only [hrate _ (Fin.succ_ne_zero _)]
    have hb0 : b 0 = -∑ j : Fin p, b j.succ := by
      rw [Fin.sum_univ_succ] at hbs
      linarith
    split
    · split
      · simp
      · rw [hb0]; ring
    · rw [hb0, ← Finset.mul_sum]; ring
  · exact (hrate i hi a w).symm

/-- C269. Where the influent changes at steady rates, there is a run whose effluent is, at all times, the influent one time scale of the
column earlier, whatever the rates of film and bead diffusion and whatever the number of nodes; and all runs approach it exponentially. -/
theorem c269_ramp (h : Spec.PlainColumn m P jac tH) (hM : 2 ≤ z) (hz : Spec.AxialGrid z P.Az) {CT : ℝ} (hC : 0 < CT) (hQ : 0 < P.Q) :
    ∃ C ω : ℝ, 0 < C ∧ 0 < ω ∧ ∀ (c0 b : Fin (p + 1) → ℝ), ∑ i, c0 i = CT → ∑ i, b i = 0 → ∃ Y : ℝ → ColState r p z,
      (∀ T, Spec.Solves colComp (fun t u => m.rhs P tH (fun i => c0 i + t * b i) u) 0 T Y) ∧ Spec.Totals CT P.Q (Y 0) ∧
      (∀ t i, Y t 0 i (Fin.last z) = c0 i + (t - tHalf P c0 / tH) * b i) ∧
      ∀ (ε T : ℝ) (y : ℝ → ColState r p z), Spec.Solves colComp (fun t u => m.rhs P tH (fun i => c0 i + t * b i) u) 0 T y →
        Spec.Totals CT P.Q (y 0) → Spec.ColNear ε (y 0) (Y 0) → ∀ t ∈ Icc 0 T, Spec.ColNear (C * Real.exp (-(ω * t)) * ε) (y t) (Y t) := by
  obtain ⟨U, hU⟩ := ramp_exists (Q := P.Q) h hz hC hQ
  obtain ⟨C, ω, hCp, hω, hx⟩ := c257_forgets (Q := P.Q) h hz hC hQ
  obtain ⟨g, hgi, hsum, hgt⟩ := axial_mean hz hM
  have hW := (h.grid.wpos (Fin.last r)).ne'
  have hE := h.bed.1.ne'
  have hLp := h.flow.2.ne'
  have hv := h.flow.1.ne'
  have htH := h.time.ne'
  have hC0 := hC.ne'
  have hlast : Fin.last z ≠ 0 := fun e => by have := congrArg Fin.val e; simp at this; omega
  have hW3 : ∑ k, P.Wr k = 1 / 3 := by
    rw [h.grid.weights]
    exact (c17_positive_sum (Nat.succ_pos r) (radialNodes_inj h.grid.zeros.1 (fun i => (h.grid.zeros.2.1 i).2))
      (radialNodes_pos (fun i => (h.grid.zeros.2.1 i).1)) (by norm_num : (0:ℝ) < 3)).2
  refine ⟨C, ω, hCp, hω, fun c0 b hc hb => ⟨rampRun c0 b P.Q U, hU c0 b hc hb, rampRun_totals hC hc hb U 0, fun t i => ?_,
    fun ε T y hy h0 hε => ?_⟩⟩
  · have hsc : ∀ t', ∑ i, (c0 i + t' * b i) = CT := fun t' => by rw [Finset.sum_add_distrib, ← Finset.mul_sum, hb, hc]; ring
    have hout : ∀ s, rampRun c0 b P.Q U s 0 i (Fin.last z) = c0 i + s * b i - lagState b U 0 i (Fin.last z) := by
      intro s
      simp only [rampRun, hlast, and_false, if_false, Spec.exhausted, if_true]
    have hlin : Continuous fun s => c0 i + s * b i := by fun_prop
    have hbal := c155_solutions m P (by omega) tH (fun t i => c0 i + t * b i) hW hE hgi hgt i zero_le_one (hU c0 b hc hb 1)
      (hlin.intervalIntegrable _ _)
    have hr : (∫ s in (0 : ℝ)..1, (c0 i + s * b i)) - ∫ s in (0 : ℝ)..1, rampRun c0 b P.Q U s 0 i (Fin.last z) =
        lagState b U 0 i (Fin.last z) := by
      simp only [hout]
      rw [intervalIntegral.integral_sub (hlin.intervalIntegrable _ _) intervalIntegrable_const]
      simp
    have hl : Spec.colContent P.EBED P.Wr g (rampRun c0 b P.Q U 1) i - Spec.colContent P.EBED P.Wr g (rampRun c0 b P.Q U 0) i =
        (P.EBED + (1 - P.EBED) * P.Q / CT) * b i := by
      unfold Spec.colContent
      rw [← Finset.sum_sub_distrib]
      have : ∀ w, g w * (P.EBED * rampRun c0 b P.Q U 1 0 i w + (1 - P.EBED) * (3 * ∑ k : Fin (r + 1), P.Wr k * rampRun c0 b P.Q U 1 k.succ i w)) -
          g w * (P.EBED * rampRun c0 b P.Q U 0 0 i w + (1 - P.EBED) * (3 * ∑ k : Fin (r + 1), P.Wr k * rampRun c0 b P.Q U 0 k.succ i w)) =
          g w * ((P.EBED + (1 - P.EBED) * P.Q / CT) * b i) := by
        intro w
        by_cases hw : w = 0
        · rw [hw, hgi]; ring
        · have hk : ∑ k : Fin (r + 1), P.Wr k * rampRun c0 b P.Q U 1 k.succ i w - ∑ k : Fin (r + 1), P.Wr k * rampRun c0 b P.Q U 0 k.succ i w =
              1 / 3 * (P.Q * b i / CT) := by
            rw [← Finset.sum_sub_distrib, ← hW3, Finset.sum_mul]
            refine Finset.sum_congr rfl fun k _ => ?_
            simp only [rampRun, Fin.succ_ne_zero, false_and, if_false, Spec.exhausted, hsc]
            ring
          have hq : rampRun c0 b P.Q U 1 0 i w - rampRun c0 b P.Q U 0 0 i w = b i := by
            simp only [rampRun, hw, and_false, if_false, Spec.exhausted, if_true]
            ring
          rw [← mul_sub]
          congr 1
          have : ∀ A B D F : ℝ, P.EBED * A + (1 - P.EBED) * (3 * D) - (P.EBED * B + (1 - P.EBED) * (3 * F)) =
              P.EBED * (A - B) + (1 - P.EBED) * (3 * (D - F)) := fun A B D F => by ring
          rw [this, hk, hq]
          ring
      simp only [this]
      rw [← Finset.sum_mul, hsum, one_mul]
    rw [hl, hr] at hbal
    have hlag : lagState b U 0 i (Fin.last z) = tHalf P c0 / tH * b i := by
      have ht : P.L * (P.EBED + (1 - P.EBED) * P.Q / CT) = P.v * tHalf P c0 := by
        unfold tHalf
        simp only [hc]
        field_simp
      have h1 : P.L * ((P.EBED + (1 - P.EBED) * P.Q / CT) * b i) = P.v * tH * lagState b U 0 i (Fin.last z) := by
        rw [hbal]
        field_simp
      rw [← mul_assoc, ht] at h1
      have h2 : P.v * (tHalf P c0 * b i) = P.v * (tH * lagState b U 0 i (Fin.last z)) := by linarith
      have h3 := mul_left_cancel₀ hv h2
      field_simp
      linarith
    rw [hout, hlag]
    ring
  · exact hx ε T (fun t i => c0 i + t * b i) y _ (fun t _ => by rw [Finset.sum_add_distrib, ← Finset.mul_sum, hb, hc]; ring) hy
      (hU c0 b hc hb T) h0 (rampRun_totals hC hc hb U 0) hε

/-- C269. So the effluent of every run runs after the influent, in the end exactly one time scale behind. -/
theorem c269_effluent (h : Spec.PlainColumn m P jac tH) (hM : 2 ≤ z) (hz : Spec.AxialGrid z P.Az) (hQ : 0 < P.Q)
    {c0 b : Fin (p + 1) → ℝ} (hC : 0 < ∑ i, c0 i) (hb : ∑ i, b i = 0) {y : ℝ → ColState r p z}
    (hy : ∀ T, Spec.Solves colComp (fun t u => m.rhs P tH (fun i => c0 i + t * b i) u) 0 T y) (h0 : Spec.Totals (∑ i, c0 i) P.Q (y 0))
    (i : Fin (p + 1)) : Filter.Tendsto (fun t => y t 0 i (Fin.last z) - (c0 i + (t - tHalf P c0 / tH) * b i)) Filter.atTop (nhds 0) := by
  have hlast : Fin.last z ≠ 0 := fun e => by have := congrArg Fin.val e; simp at this; omega
  obtain ⟨C, ω, hCp, hω, hx⟩ := c269_ramp h hM hz hC hQ
  obtain ⟨Y, -, -, hout, hnear⟩ := hx c0 b rfl hb
  obtain ⟨ε, hε⟩ : ∃ ε, ∀ a i w, |y 0 a i w - Y 0 a i w| ≤ ε := by
    obtain ⟨b, hb⟩ := Finite.exists_max fun a : Fin (r + 2) × Fin (p + 1) × Fin (z + 1) => |y 0 a.1 a.2.1 a.2.2 - Y 0 a.1 a.2.1 a.2.2|
    exact ⟨_, fun a i w => hb (a, i, w)⟩
  have hlim : Filter.Tendsto (fun t => C * Real.exp (-(ω * t)) * ε) Filter.atTop (nhds 0) := by
    have h1 : Filter.Tendsto (fun t => ω * t) Filter.atTop Filter.atTop := Filter.tendsto_id.const_mul_atTop hω
    have h3 := ((Real.tendsto_exp_neg_atTop_nhds_zero.comp h1).const_mul C).mul_const ε
    simpa using h3
  refine squeeze_zero_norm' ?_ hlim
  filter_upwards [Filter.eventually_ge_atTop 0] with t ht
  rw [← hout]
  exact (hnear ε t y (hy t) h0 ⟨fun i w _ => hε 0 i w, fun k i w => hε k.succ i w⟩ t ⟨ht, le_rfl⟩).1 i _ hlast

end

/-- A column as in C269, with a water in which one ion slowly replaces another; its time scale is 11 / 12. -/
example (m : ColModel) (r z : ℕ) (hM : 2 ≤ z) (A : Fin (z + 1) → Fin (z + 1) → ℝ) (hA : Spec.AxialGrid z A) : ∃ (P : ColParams r 2 z)
    (y : ℝ → ColState r 2 z), y 0 = colInit P.Q ![1, 2, 3] none ∧
    (∀ T, Spec.Solves colComp (fun t u => m.rhs P 1 (fun i => ![1, 2, 3] i + t * ![0, 1, -1] i) u) 0 T y) ∧
    Filter.Tendsto (fun t => y t 0 1 (Fin.last z) - (2 + (t - 11 / 12))) Filter.atTop (nhds 0) := by
  obtain ⟨jac, B, W, g⟩ := beadGrid_exists r
  let P : ColParams r 2 z := ⟨1 / 2, 1, 1, 1, 5, 1 / 2, fun _ => 1, fun _ => 1, fun _ => 2, fun _ => 1, fun _ => 1, A, B, W⟩
  have hP : Spec.PlainColumn m P jac 1 := ⟨g, by show (0 : ℝ) < 1 / 2 ∧ (1 / 2 : ℝ) < 1; norm_num, ⟨one_pos, one_pos⟩, one_pos, one_pos,
    fun _ _ => ⟨one_pos, one_pos⟩, fun _ => ⟨by show (0 : ℝ) ≤ 1 / 2; norm_num, by show (1 / 2 : ℝ) < 1; norm_num,
      fun _ _ => by show (1 : ℝ) ≤ 2; norm_num⟩, fun _ => rfl, fun _ => by show (1 : ℕ) ≠ 2; decide⟩
  have hs : ∑ i, (![1, 2, 3] : Fin 3 → ℝ) i = 6 := by simp [Fin.sum_univ_three]; norm_num
  have hb : ∑ i, (![0, 1, -1] : Fin 3 → ℝ) i = 0 := by simp [Fin.sum_univ_three]
  have hQ : 0 < P.Q := by show (0 : ℝ) < 5; norm_num
  have h6 : 0 < ∑ i, (![1, 2, 3] : Fin 3 → ℝ) i := by rw [hs]; norm_num
  have hu : Spec.Totals (∑ i, (![1, 2, 3] : Fin 3 → ℝ) i) P.Q (colInit P.Q ![1, 2, 3] none : ColState r 2 z) :=
    ⟨fun w _ => (c33_column P.Q ![1, 2, 3]).2.1 w, (c33_column P.Q ![1, 2, 3]).1⟩
  obtain ⟨y, hy0, hy, -⟩ := c257_run (cin := fun t i => (![1, 2, 3] : Fin 3 → ℝ) i + t * (![0, 1, -1] : Fin 3 → ℝ) i) hP hA h6 hQ
    (continuous_pi fun i => by fun_prop) (fun t => by rw [Finset.sum_add_distrib, ← Finset.mul_sum, hb]; ring) hu
  refine ⟨P, y, hy0, hy, ?_⟩
  have := c269_effluent hP hM hA hQ h6 hb hy (by rw [hy0]; exact hu) 1
  have ht : tHalf P ![1, 2, 3] = 11 / 12 := by
    unfold tHalf
    rw [hs]
    show (1 : ℝ) * (1 / 2) / 1 * (1 + (1 - 1 / 2) / (1 / 2) * 5 / 6) = _
    norm_num
  rw [ht] at this
  simpa using this

end WTM
