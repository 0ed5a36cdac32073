import Verif.Lemmas.AxialDecay
import Verif.Props.ColumnLimit

/-! Property C259: the total concentration in the water, and ions that do not enter the beads, forget the start of the column exponentially and
then come out as they were fed, one residence time of the water later; whatever the resin, the ions, the model and the number of nodes. -/
set_option autoImplicit false
namespace WTM
open BigOperators Set Polynomial

theorem axial_settle {z : ℕ} {A : Fin (z + 1) → Fin (z + 1) → ℝ} (h : Spec.AxialGrid z A) {κ : ℝ} (hκ : 0 < κ) :
    ∃ C ω : ℝ, 0 < C ∧ 0 < ω ∧ ∀ (x : ℝ → Fin z → ℝ) (T : ℝ),
      (∀ t ∈ Icc 0 T, ∀ w, HasDerivWithinAt (fun t => x t w) (-(κ * ∑ w' : Fin z, A w.succ w'.succ * x t w')) (Icc 0 T) t) →
      ∀ t ∈ Icc 0 T, ‖x t‖ ≤ C * Real.exp (-(ω * t)) * ‖x 0‖ := by
  cases h with
  | single h => exact legendre_settle h hκ
  | elements h K => exact elements_settle h K hκ

/-- What only flows: fed with `c`, carried with speed `κ`. -/
def Carried {z : ℕ} (A : Fin (z + 1) → Fin (z + 1) → ℝ) (κ : ℝ) (c : ℝ → ℝ) (t0 t1 : ℝ) (s : ℝ → Fin (z + 1) → ℝ) : Prop :=
  ∀ t ∈ Icc t0 t1, ∀ w, w ≠ 0 →
    HasDerivWithinAt (fun t => s t w) (-(κ * ∑ w', A w w' * (if w' = 0 then c t else s t w'))) (Icc t0 t1) t

theorem carried_near {z : ℕ} {A : Fin (z + 1) → Fin (z + 1) → ℝ} (h : Spec.AxialGrid z A) {κ : ℝ} (hκ : 0 < κ) :
    ∃ C ω : ℝ, 0 < C ∧ 0 < ω ∧ ∀ (t0 t1 ε : ℝ) (c : ℝ → ℝ) (s s' : ℝ → Fin (z + 1) → ℝ), Carried A κ c t0 t1 s → Carried A κ c t0 t1 s' →
      (∀ w, w ≠ 0 → |s t0 w - s' t0 w| ≤ ε) →
      ∀ t ∈ Icc t0 t1, ∀ w, w ≠ 0 → |s t w - s' t w| ≤ C * Real.exp (-(ω * (t - t0))) * ε := by
  obtain ⟨C, ω, hC, hω, hx⟩ := axial_settle h hκ
  have hz := axial_pos h
  refine ⟨C, ω, hC, hω, fun t0 t1 ε c s s' hs hs' h0 t ht w hw => ?_⟩
  have hd : ∀ τ ∈ Icc 0 (t1 - t0), ∀ w : Fin z, HasDerivWithinAt (fun τ => s (t0 + τ) w.succ - s' (t0 + τ) w.succ)
      (-(κ * ∑ w' : Fin z, A w.succ w'.succ * (s (t0 + τ) w'.succ - s' (t0 + τ) w'.succ))) (Icc 0 (t1 - t0)) τ := by
    intro τ hτ w
    have hm : t0 + τ ∈ Icc t0 t1 := ⟨by linarith [hτ.1], by linarith [hτ.2]⟩
    have h1 := (hs _ hm w.succ (Fin.succ_ne_zero w)).sub (hs' _ hm w.succ (Fin.succ_ne_zero w))
    have h2 : HasDerivWithinAt (fun τ : ℝ => t0 + τ) 1 (Icc 0 (t1 - t0)) τ := ((hasDerivAt_id τ).const_add t0).hasDerivWithinAt
    have h3 := h1.scomp τ h2 (fun σ hσ => ⟨by linarith [hσ.1], by linarith [hσ.2]⟩)
    refine h3.congr_deriv ?_
    rw [one_smul, Fin.sum_univ_succ, Fin.sum_univ_succ]
    simp only [if_true, Fin.succ_ne_zero, if_false, mul_sub, Finset.sum_sub_distrib, mul_add]
    ring
  have hmem : t - t0 ∈ Icc 0 (t1 - t0) := ⟨by linarith [ht.1], by linarith [ht.2]⟩
  have h1 := hx (fun τ w => s (t0 + τ) w.succ - s' (t0 + τ) w.succ) _ hd _ hmem
  have hε : 0 ≤ ε := (abs_nonneg _).trans (h0 w hw)
  have h2 : ‖(fun w : Fin z => s (t0 + 0) w.succ - s' (t0 + 0) w.succ)‖ ≤ ε := by
    rw [pi_norm_le_iff_of_nonneg hε]
    intro w
    rw [add_zero, Real.norm_eq_abs]
    exact h0 _ (Fin.succ_ne_zero w)
  obtain ⟨w', rfl⟩ := Fin.exists_succ_eq.2 hw
  have h3 := norm_le_pi_norm (fun w : Fin z => s (t0 + (t - t0)) w.succ - s' (t0 + (t - t0)) w.succ) w'
  rw [Real.norm_eq_abs, add_sub_cancel] at h3
  refine h3.trans ?_
  rw [add_sub_cancel] at h1
  exact h1.trans (mul_le_mul_of_nonneg_left h2 (mul_nonneg hC.le (Real.exp_pos _).le))

section
variable {r p z : ℕ}

/-- Speed of the water along the bed, in lengths of the bed per unit of the scaled time. -/
noncomputable def Spec.bedSpeed (P : ColParams r p z) (tH : ℝ) : ℝ := P.v * tH / (P.L * P.EBED)

theorem carried_total (m : ColModel) (P : ColParams r p z) (tH : ℝ) {cin : ℝ → Fin (p + 1) → ℝ} {t0 t1 : ℝ} {y : ℝ → ColState r p z}
    (hy : Spec.Solves colComp (fun t u => m.rhs P tH (cin t) u) t0 t1 y) :
    Carried P.Az (Spec.bedSpeed P tH) (fun t => ∑ i, cin t i) t0 t1 (fun t w => ∑ i, y t 0 i w) := by
  intro t ht w hw
  have d1 : HasDerivWithinAt (fun t => ∑ i, y t 0 i w) (∑ i, m.rhs P tH (cin t) (y t) 0 i w) (Icc t0 t1) t :=
    HasDerivWithinAt.fun_sum fun i _ => hy t ht (0, i, w)
  refine d1.congr_deriv ?_
  rw [c30_advection_only m P tH _ _ hw]
  simp only [setInlet_total]
  unfold Spec.bedSpeed
  rw [mul_comm P.L, div_mul_eq_div_div]
  ring

theorem carried_tracer (m : ColModel) (P : ColParams r p z) (tH : ℝ) {i : Fin (p + 1)} (hi : i ≠ 0) (hk : P.kL i = 0)
    {cin : ℝ → Fin (p + 1) → ℝ} {t0 t1 : ℝ} {y : ℝ → ColState r p z}
    (hy : Spec.Solves colComp (fun t u => m.rhs P tH (cin t) u) t0 t1 y) :
    Carried P.Az (Spec.bedSpeed P tH) (fun t => cin t i) t0 t1 (fun t w => y t 0 i w) := by
  intro t ht w hw
  refine (hy t ht (0, i, w)).congr_deriv ?_
  have hflux : m.flux P (setInlet (y t) (cin t)) i w = 0 := by
    unfold ColModel.flux fluxJ implicitRef
    rw [if_neg hi]
    simp only [hk, neg_zero, zero_mul]
  simp only [colComp]
  rw [rhs_eq, assemble_liq, if_neg hw]
  unfold liqRate
  rw [hflux]
  have : ∀ w', setInlet (y t) (cin t) 0 i w' = if w' = 0 then cin t i else y t 0 i w' := by
    intro w'
    unfold setInlet
    by_cases h : w' = 0 <;> simp [h]
  simp only [this]
  unfold Spec.bedSpeed
  rw [mul_comm P.L, div_mul_eq_div_div]
  ring

/-- The exact motion of a polynomial that is fed. -/
theorem carried_delay {A : Fin (z + 1) → Fin (z + 1) → ℝ} {x : Fin (z + 1) → ℝ} (hx0 : x 0 = 0) {d : ℕ} (hA : Spec.Differentiates A x d)
    {κ : ℝ} (hκ : κ ≠ 0) {f : ℝ[X]} (hf : f.natDegree ≤ d) (t0 t1 : ℝ) :
    Carried A κ (fun t => f.eval t) t0 t1 (fun t w => f.eval (t - x w / κ)) := by
  intro t _ w hw
  have hdeg : (f.comp (C t - C κ⁻¹ * X)).natDegree ≤ d := by
    refine le_trans natDegree_comp_le ?_
    have : (C t - C κ⁻¹ * X : ℝ[X]).natDegree ≤ 1 := by
      refine le_trans (natDegree_sub_le _ _) ?_
      simp only [natDegree_C]
      exact max_le (by omega) (by rw [← smul_eq_C_mul]; exact le_trans (natDegree_smul_le _ _) natDegree_X_le)
    calc f.natDegree * _ ≤ f.natDegree * 1 := Nat.mul_le_mul_left _ this
      _ ≤ d := by omega
  have hC : ∀ w', (if w' = 0 then f.eval t else f.eval (t - x w' / κ)) = (f.comp (C t - C κ⁻¹ * X)).eval (x w') := by
    intro w'
    rw [eval_comp]
    simp only [eval_sub, eval_mul, eval_C, eval_X]
    by_cases h : w' = 0
    · rw [if_pos h, h, hx0, mul_zero, sub_zero]
    · rw [if_neg h, div_eq_inv_mul]
  simp only [hC]
  rw [hA _ hdeg w hw, derivative_comp, eval_mul, eval_comp]
  simp only [eval_sub, eval_mul, eval_C, eval_X, derivative_sub, derivative_mul, derivative_C, derivative_X, zero_mul, zero_add,
    zero_sub, mul_one, eval_neg]
  have h1 : HasDerivAt (fun s : ℝ => s - x w / κ) 1 t := (hasDerivAt_id t).sub_const _
  have h2 := (f.hasDerivAt (t - x w / κ)).comp t h1
  refine (h2.congr_deriv ?_).hasDerivWithinAt
  rw [div_eq_inv_mul]
  field_simp

end

section
variable {z : ℕ} {A : Fin (z + 1) → Fin (z + 1) → ℝ} {κ : ℝ}

/-- C259. The total concentration in the water forgets the start, and knows the flow only: two columns with the same axial grid and speed
of the water, whatever their ions, resin, model and radial nodes, fed with the same total. The constants depend on the grid and the speed. -/
theorem c259_totals (hz : Spec.AxialGrid z A) (hκ : 0 < κ) : ∃ C ω : ℝ, 0 < C ∧ 0 < ω ∧
    ∀ (r p r' p' : ℕ) (m m' : ColModel) (P : ColParams r p z) (P' : ColParams r' p' z) (tH tH' : ℝ), P.Az = A → P'.Az = A →
      Spec.bedSpeed P tH = κ → Spec.bedSpeed P' tH' = κ →
      ∀ (t0 t1 ε : ℝ) (cin : ℝ → Fin (p + 1) → ℝ) (cin' : ℝ → Fin (p' + 1) → ℝ) (y : ℝ → ColState r p z) (y' : ℝ → ColState r' p' z),
      (∀ t ∈ Icc t0 t1, ∑ i, cin t i = ∑ i, cin' t i) → Spec.Solves colComp (fun t u => m.rhs P tH (cin t) u) t0 t1 y →
      Spec.Solves colComp (fun t u => m'.rhs P' tH' (cin' t) u) t0 t1 y' →
      (∀ w, w ≠ 0 → |∑ i, y t0 0 i w - ∑ i, y' t0 0 i w| ≤ ε) →
      ∀ t ∈ Icc t0 t1, ∀ w, w ≠ 0 → |∑ i, y t 0 i w - ∑ i, y' t 0 i w| ≤ C * Real.exp (-(ω * (t - t0))) * ε := by
  obtain ⟨C, ω, hC, hω, h⟩ := carried_near hz hκ
  refine ⟨C, ω, hC, hω, ?_⟩
  intro r p r' p' m m' P P' tH tH' hA hA' hk hk' t0 t1 ε cin cin' y y' hc hy hy' h0
  have e1 := carried_total m P tH hy
  have e2 := carried_total m' P' tH' hy'
  rw [hA, hk] at e1
  rw [hA', hk'] at e2
  refine h t0 t1 ε _ _ _ e1 (fun t ht w hw => ?_) h0
  have := e2 t ht w hw
  beta_reduce at this
  rwa [← hc t ht] at this

/-- C259. Once the total that is fed follows a polynomial of time of a degree the axial points resolve, the total at the point `x` of the bed
tends to what was fed the time `x` times `EBED L / v` earlier. -/
theorem c259_delay (hz : Spec.AxialGrid z A) (hκ : 0 < κ) {x : Fin (z + 1) → ℝ} (hx0 : x 0 = 0) {d : ℕ} (hd : Spec.Differentiates A x d) :
    ∃ C ω : ℝ, 0 < C ∧ 0 < ω ∧
    ∀ (r p : ℕ) (m : ColModel) (P : ColParams r p z) (tH : ℝ), P.Az = A → Spec.bedSpeed P tH = κ →
      ∀ (t0 t1 ε : ℝ) (cin : ℝ → Fin (p + 1) → ℝ) (y : ℝ → ColState r p z) (f : ℝ[X]), f.natDegree ≤ d →
      (∀ t ∈ Icc t0 t1, ∑ i, cin t i = f.eval t) → Spec.Solves colComp (fun t u => m.rhs P tH (cin t) u) t0 t1 y →
      (∀ w, w ≠ 0 → |∑ i, y t0 0 i w - f.eval (t0 - x w / κ)| ≤ ε) →
      ∀ t ∈ Icc t0 t1, ∀ w, w ≠ 0 → |∑ i, y t 0 i w - f.eval (t - x w / κ)| ≤ C * Real.exp (-(ω * (t - t0))) * ε := by
  obtain ⟨C, ω, hC, hω, h⟩ := carried_near hz hκ
  refine ⟨C, ω, hC, hω, ?_⟩
  intro r p m P tH hA hk t0 t1 ε cin y f hf hc hy h0
  have e1 := carried_total m P tH hy
  rw [hA, hk] at e1
  refine h t0 t1 ε (fun t => f.eval t) _ _ (fun t ht w hw => ?_) (carried_delay hx0 hd hκ.ne' hf t0 t1) h0
  have := e1 t ht w hw
  beta_reduce at this
  rwa [hc t ht] at this

/-- C259. The same of an ion that does not enter the beads, whatever the other ions do. -/
theorem c259_tracer (hz : Spec.AxialGrid z A) (hκ : 0 < κ) {x : Fin (z + 1) → ℝ} (hx0 : x 0 = 0) {d : ℕ} (hd : Spec.Differentiates A x d) :
    ∃ C ω : ℝ, 0 < C ∧ 0 < ω ∧
    ∀ (r p : ℕ) (m : ColModel) (P : ColParams r p z) (tH : ℝ), P.Az = A → Spec.bedSpeed P tH = κ → ∀ i, i ≠ 0 → P.kL i = 0 →
      ∀ (t0 t1 ε : ℝ) (cin : ℝ → Fin (p + 1) → ℝ) (y : ℝ → ColState r p z) (f : ℝ[X]), f.natDegree ≤ d →
      (∀ t ∈ Icc t0 t1, cin t i = f.eval t) → Spec.Solves colComp (fun t u => m.rhs P tH (cin t) u) t0 t1 y →
      (∀ w, w ≠ 0 → |y t0 0 i w - f.eval (t0 - x w / κ)| ≤ ε) →
      ∀ t ∈ Icc t0 t1, ∀ w, w ≠ 0 → |y t 0 i w - f.eval (t - x w / κ)| ≤ C * Real.exp (-(ω * (t - t0))) * ε := by
  obtain ⟨C, ω, hC, hω, h⟩ := carried_near hz hκ
  refine ⟨C, ω, hC, hω, ?_⟩
  intro r p m P tH hA hk i hi hkL t0 t1 ε cin y f hf hc hy h0
  have e1 := carried_tracer m P tH hi hkL hy
  rw [hA, hk] at e1
  refine h t0 t1 ε (fun t => f.eval t) _ _ (fun t ht w hw => ?_) (carried_delay hx0 hd hκ.ne' hf t0 t1) h0
  have := e1 t ht w hw
  beta_reduce at this
  rwa [hc t ht] at this

/-- Axial points of both kinds of grid, from the inlet to the outlet. -/
theorem axial_points (hz : Spec.AxialGrid z A) : ∃ x : Fin (z + 1) → ℝ, x 0 = 0 ∧ x (Fin.last z) = 1 ∧ Spec.Differentiates A x (min z 2) := by
  cases hz with
  | single h =>
    refine ⟨_, rfl, ?_, fun f hf => differentiates_single h.1 h.2.1 f (hf.trans (min_le_left _ _))⟩
    rw [← Fin.succ_last, axialNodes, Fin.cons_succ, Fin.snoc_last]
  | elements h K =>
    have hx := half_nodes h
    refine ⟨_, ?_, ?_, fun f hf => differentiates_elements (NE := K + 1) (M := 2) (x := axialNodes _) (by omega) (by norm_num)
      (by rw [hx]; exact half_strict) (by rw [hx]; rfl) (by rw [hx]; rfl) f (hf.trans (min_le_right _ _))⟩
    · have := gridPt_eq (NE := K + 1) (M := 2) (x := axialNodes _) (by omega) (by norm_num) (by rw [hx]; rfl) (by rw [hx]; rfl)
        (k := 0) (by omega) 0
      rw [hx] at this ⊢
      simpa using this
    · have := gridPt_eq (NE := K + 1) (M := 2) (x := axialNodes _) (by omega) (by norm_num) (by rw [hx]; rfl) (by rw [hx]; rfl)
        (k := K) (by omega) 2
      rw [hx] at this ⊢
      have e : ((Fin.last ((K + 1) * 2) : Fin _) : ℕ) = K * 2 + ((2 : Fin 3) : ℕ) := by
        rw [Fin.val_last]
        show (K + 1) * 2 = K * 2 + 2
        ring
      rw [e, this]
      have hK : (K : ℝ) + 1 ≠ 0 := by positivity
      simp
      field_simp
      ring

/-- C259. When the total that is fed is constant from some time on, the total at every point of the bed, and in the effluent, tends to it. -/
theorem c259_limit (hz : Spec.AxialGrid z A) {r p : ℕ} (m : ColModel) {P : ColParams r p z} {tH : ℝ} (hA : P.Az = A) (hs : 0 < Spec.bedSpeed P tH)
    {cin : ℝ → Fin (p + 1) → ℝ} {CT t0 : ℝ} (hc : ∀ t, t0 ≤ t → ∑ i, cin t i = CT) {y : ℝ → ColState r p z}
    (hy : ∀ T, Spec.Solves colComp (fun t u => m.rhs P tH (cin t) u) t0 T y) {w : Fin (z + 1)} (hw : w ≠ 0) :
    Filter.Tendsto (fun t => ∑ i, y t 0 i w) Filter.atTop (nhds CT) := by
  obtain ⟨x, hx0, -, hd⟩ := axial_points hz
  obtain ⟨C, ω, hC, hω, h⟩ := c259_delay hz hs hx0 hd
  set ε := ∑ w, |∑ i, y t0 0 i w - CT| with hε
  have hb : ∀ t, t0 ≤ t → |∑ i, y t 0 i w - CT| ≤ C * Real.exp (-(ω * (t - t0))) * ε := by
    intro t ht
    have := h r p m P tH hA rfl t0 t ε cin y (Polynomial.C CT) (by simp) (fun s hs => by rw [eval_C, hc s hs.1]) (hy t) (fun w _ => by
      rw [eval_C, hε]
      exact Finset.single_le_sum (f := fun w => |∑ i, y t0 0 i w - CT|) (fun w _ => abs_nonneg _) (Finset.mem_univ w)) t ⟨ht, le_rfl⟩ w hw
    rwa [eval_C] at this
  rw [tendsto_iff_norm_sub_tendsto_zero]
  refine squeeze_zero' (Filter.Eventually.of_forall fun _ => norm_nonneg _) (g := fun t => C * Real.exp (-(ω * (t - t0))) * ε) ?_ ?_
  · filter_upwards [Filter.eventually_ge_atTop t0] with t ht
    rw [Real.norm_eq_abs]
    exact hb t ht
  · have h1 : Filter.Tendsto (fun t => ω * (t - t0)) Filter.atTop Filter.atTop :=
      (Filter.tendsto_atTop_add_const_right _ (-t0) Filter.tendsto_id).const_mul_atTop hω
    have h2 := ((Real.tendsto_exp_neg_atTop_nhds_zero.comp h1).const_mul C).mul_const ε
    rw [mul_zero, zero_mul] at h2
    exact h2

/-- A run whose total is not what is fed, for all time: one point below the inlet, ions that do not enter the beads. -/
example : ∃ (A : Fin 2 → Fin 2 → ℝ) (P : ColParams 0 1 1) (y : ℝ → ColState 0 1 1), Spec.AxialGrid 1 A ∧ P.Az = A ∧ 0 < Spec.bedSpeed P 1 ∧
    P.kL 1 = 0 ∧ (∀ t0 t1, Spec.Solves colComp (fun _ u => ColModel.hsdm.rhs P 1 (fun _ => 1) u) t0 t1 y) ∧
    ∀ t, ∑ i, y t 0 i 1 = 2 + 2 * Real.exp (-t) := by
  obtain ⟨leg, h, -⟩ := legendre_exists 0
  have hn : axialNodes leg = ![0, 1] := by
    ext i
    fin_cases i <;> rfl
  have hA : aMat (axialNodes leg) 1 0 = -1 ∧ aMat (axialNodes leg) 1 1 = 1 := by
    have h1 := differentiates_single h.1 h.2.1 (1 : ℝ[X]) (by simp) 1 (by simp)
    have h2 := differentiates_single h.1 h.2.1 (X : ℝ[X]) (by simp) 1 (by simp)
    rw [Fin.sum_univ_two] at h1 h2
    simp only [hn] at h1 h2 ⊢
    simp at h1 h2
    exact ⟨by linarith, by linarith⟩
  set P : ColParams 0 1 1 := ⟨1 / 2, 1, 1 / 2, 1, 1, 0, fun _ => 0, fun _ => 0, fun _ => 0, fun _ => 1, fun _ => 1,
    aMat (axialNodes leg), fun _ _ => 0, fun _ => 1 / 3⟩ with hP
  refine ⟨aMat (axialNodes leg), P, fun t a _ w => if a = 0 ∧ w ≠ 0 then 1 + Real.exp (-t) else 0, .single h, rfl, ?_, rfl, ?_, ?_⟩
  · norm_num [Spec.bedSpeed, hP]
  · intro t0 t1 t _ a
    obtain ⟨a, i, w⟩ := a
    have hflux : ∀ u i w, ColModel.hsdm.flux P u i w = 0 := by
      intro u i w
      unfold ColModel.flux fluxJ implicitRef
      by_cases hi : i = 0 <;> simp [hi, hP]
    induction a using Fin.cases with
    | zero =>
      by_cases hw : w = 0
      · subst hw
        simp only [colComp]
        rw [inlet_rate]
        simpa using hasDerivWithinAt_const t (Set.Icc t0 t1) (0 : ℝ)
      · obtain rfl : w = 1 := (Fin.eq_one_of_ne_zero w hw)
        simp only [colComp]
        rw [rhs_eq, assemble_liq, if_neg hw]
        unfold liqRate
        rw [hflux, Fin.sum_univ_two]
        simp only [hP, hA.1, hA.2]
        have hd : HasDerivAt (fun t : ℝ => 1 + Real.exp (-t)) (-Real.exp (-t)) t := by
          simpa using ((hasDerivAt_neg t).exp).const_add 1
        refine (hd.congr_deriv ?_).hasDerivWithinAt.congr_of_mem (fun s _ => by simp) (by assumption)
        simp [setInlet]
        ring
    | succ k =>
      simp only [colComp]
      rw [rhs_eq, assemble_bead, if_pos (by omega : k = Fin.last 0), hflux]
      simp
      exact hasDerivWithinAt_const t (Set.Icc t0 t1) (0 : ℝ)
  · intro t
    simp

end
end WTM
