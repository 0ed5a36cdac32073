import Verif.Lemmas.LocalSettle
import Verif.Lemmas.ColumnDecay
import Verif.Lemmas.Global
import Verif.Lemmas.Lip

/-! A column of beads with any smooth isotherm, fed with a constant water: near the exhausted state the excess dies out exponentially. -/
set_option autoImplicit false
namespace WTM
open BigOperators Set Topology Filter

variable {r z : ℕ} {φ : ℝ → ℝ} {a α b f μ κ : ℝ} {jac : Fin r → ℝ} {B : Fin (r + 1) → Fin (r + 1) → ℝ} {W : Fin (r + 1) → ℝ}
  {A : Fin (z + 1) → Fin (z + 1) → ℝ} {G : Fin z → Fin z → ℝ}

/-- Excesses of a whole column: the beads at the inlet, and the beads and the water below it. -/
abbrev BedExc (r z : ℕ) := (Fin (r + 1) → ℝ) × ColExc r z

/-- Rates of the excesses, `φ` being the isotherm counted from the exhausted state. -/
noncomputable def bedRhs (φ : ℝ → ℝ) (α b f μ κ : ℝ) (A : Fin (z + 1) → Fin (z + 1) → ℝ) (B : Fin (r + 1) → Fin (r + 1) → ℝ)
    (W : Fin (r + 1) → ℝ) (v : BedExc r z) : BedExc r z :=
  ((tankRhs φ α b f 1 B W (v.1, 0)).1, fun w => tankRhs φ α b f μ B W (v.2 w) -
    ((0 : Fin (r + 1) → ℝ), κ * ∑ w' : Fin z, A w.succ w'.succ * (v.2 w').2))

/-- The linear part of the rates. -/
noncomputable def bedCL (a β f μ κ : ℝ) (A : Fin (z + 1) → Fin (z + 1) → ℝ) (B : Fin (r + 1) → Fin (r + 1) → ℝ) (W : Fin (r + 1) → ℝ) :
    BedExc r z →L[ℝ] BedExc r z := (inletCL a β f B W).prodMap (colCL a β f μ κ A B W)

/-- The remainder, in terms of the remainder `ρ` of the isotherm. -/
noncomputable def bedRest (ρ : ℝ → ℝ) (α f μ : ℝ) (B : Fin (r + 1) → Fin (r + 1) → ℝ) (W : Fin (r + 1) → ℝ) (v : BedExc r z) : BedExc r z :=
  ((tankCL 1 α f 1 B W (fun k => ρ (v.1 k), 0)).1, fun w => tankCL 1 α f μ B W (fun k => ρ ((v.2 w).1 k), 0))

theorem tank_split (u : (Fin (r + 1) → ℝ) × ℝ) : tankRhs φ α b f μ B W u =
    tankCL a (α * a + b) f μ B W u + tankCL 1 α f μ B W (fun k => φ (u.1 k) - a * u.1 k, 0) := by
  have e : ∀ k, ∑ l, B k l * tankPsi φ α b (u.1 l) = ∑ l, B k l * tankPsi (fun q => a * q) 0 (α * a + b) (u.1 l) +
      ∑ l, B k l * tankPsi (fun q => 1 * q) 0 α (φ (u.1 l) - a * u.1 l) := by
    intro k
    rw [← Finset.sum_add_distrib]
    refine Finset.sum_congr rfl fun l _ => ?_
    unfold tankPsi
    ring
  rw [tankCL_apply, tankCL_apply]
  refine Prod.ext (funext fun k => ?_) ?_
  · rw [Prod.fst_add, Pi.add_apply]
    simp only [tankRhs, e, mul_add, Finset.sum_add_distrib]
    split <;> ring
  · rw [Prod.snd_add]
    simp only [tankRhs]
    ring

theorem bed_split (v : BedExc r z) : bedRhs φ α b f μ κ A B W v =
    bedCL a (α * a + b) f μ κ A B W v + bedRest (fun q => φ q - a * q) α f μ B W v := by
  refine Prod.ext ?_ (funext fun w => ?_)
  · show (tankRhs φ α b f 1 B W (v.1, 0)).1 = inletCL a (α * a + b) f B W v.1 + (tankCL 1 α f 1 B W (fun k => φ (v.1 k) - a * v.1 k, 0)).1
    rw [tank_split (a := a), inletCL_apply, Prod.fst_add]
  · show tankRhs φ α b f μ B W (v.2 w) - _ = colCL a (α * a + b) f μ κ A B W v.2 w +
      tankCL 1 α f μ B W (fun k => φ ((v.2 w).1 k) - a * (v.2 w).1 k, 0)
    rw [tank_split (a := a), colCL_apply]
    abel

theorem bed_small (hφ : HasDerivAt φ a 0) (h0 : φ 0 = 0) : ∀ η > 0, ∃ δ > 0, ∀ v : BedExc r z, ‖v‖ ≤ δ →
    ‖bedRest (fun q => φ q - a * q) α f μ B W v‖ ≤ η * ‖v‖ := by
  intro η hη
  set K := ‖tankCL 1 α f 1 B W‖ + ‖tankCL 1 α f μ B W‖ + 1 with hK
  have hK0 : 0 < K := by positivity
  have hK1 : ‖tankCL 1 α f 1 B W‖ ≤ K := by rw [hK]; linarith [norm_nonneg (tankCL 1 α f μ B W)]
  have hK2 : ‖tankCL 1 α f μ B W‖ ≤ K := by rw [hK]; linarith [norm_nonneg (tankCL 1 α f 1 B W)]
  have ho := (hasDerivAt_iff_isLittleO_nhds_zero.1 hφ).def (div_pos hη hK0)
  obtain ⟨d, hd, hs⟩ := Metric.eventually_nhds_iff.1 ho
  have hρ : ∀ q : ℝ, |q| ≤ d / 2 → |φ q - a * q| ≤ η / K * |q| := by
    intro q hq
    have := hs (y := q) (by rw [Real.dist_eq, sub_zero]; linarith)
    rw [zero_add, h0, sub_zero, smul_eq_mul, Real.norm_eq_abs, Real.norm_eq_abs] at this
    rwa [mul_comm a q]
  refine ⟨d / 2, half_pos hd, fun v hv => ?_⟩
  have hb : ∀ (q : Fin (r + 1) → ℝ), ‖q‖ ≤ ‖v‖ → ‖((fun k => φ (q k) - a * q k, 0) : (Fin (r + 1) → ℝ) × ℝ)‖ ≤ η / K * ‖v‖ := by
    intro q hq
    have hη' : 0 ≤ η / K * ‖v‖ := by positivity
    refine norm_prod_le_iff.2 ⟨(pi_norm_le_iff_of_nonneg hη').2 fun k => ?_, by simpa using hη'⟩
    have h1 : |q k| ≤ ‖v‖ := (norm_le_pi_norm q k).trans hq
    exact (hρ _ (h1.trans hv)).trans (mul_le_mul_of_nonneg_left h1 (by positivity))
  have hc : ∀ (c : ℝ), ‖tankCL 1 α f c B W‖ ≤ K → ∀ q : Fin (r + 1) → ℝ, ‖q‖ ≤ ‖v‖ →
      ‖tankCL 1 α f c B W (fun k => φ (q k) - a * q k, 0)‖ ≤ η * ‖v‖ := by
    intro c hcK q hq
    refine (ContinuousLinearMap.le_opNorm _ _).trans ((mul_le_mul hcK (hb q hq) (norm_nonneg _) hK0.le).trans (le_of_eq ?_))
    field_simp
  have hη' : 0 ≤ η * ‖v‖ := by positivity
  refine norm_prod_le_iff.2 ⟨(norm_fst_le (tankCL 1 α f 1 B W (fun k => φ (v.1 k) - a * v.1 k, 0))).trans (hc 1 hK1 v.1 (norm_fst_le v)), (pi_norm_le_iff_of_nonneg hη').2 fun w => ?_⟩
  exact hc μ hK2 (v.2 w).1 ((norm_fst_le (v.2 w)).trans ((norm_le_pi_norm v.2 w).trans (norm_snd_le v)))

/-- The linear part settles. -/
theorem bed_settle {β : ℝ} (g : Spec.BeadGrid jac B W) (hA : Spec.MovesAll A) (hG : AxialForm A G) (ha : 0 < a) (hβ : 0 < β) (hf : 0 < f)
    (hμ : 0 < μ) (hκ : 0 < κ) : ∃ C ω : ℝ, 0 < C ∧ 0 < ω ∧ ∀ v t, 0 ≤ t →
      ‖linFlow (bedCL a β f μ κ A B W) v t‖ ≤ C * Real.exp (-(ω * t)) * ‖v‖ := by
  obtain ⟨C1, ω1, hC1, hω1, h1⟩ := column_settle g hA hG ha hβ hf hμ hκ
  obtain ⟨C2, ω2, hC2, hω2, h2⟩ := inlet_settle g ha hβ hf
  refine ⟨max C1 C2, min ω1 ω2, lt_max_of_lt_left hC1, lt_min hω1 hω2, fun v t ht => ?_⟩
  have e1 : C1 * Real.exp (-(ω1 * t)) ≤ max C1 C2 * Real.exp (-(min ω1 ω2 * t)) :=
    mul_le_mul (le_max_left _ _) (Real.exp_le_exp.2 (neg_le_neg (mul_le_mul_of_nonneg_right (min_le_left _ _) ht))) (Real.exp_pos _).le
      (le_max_of_le_left hC1.le)
  have e2 : C2 * Real.exp (-(ω2 * t)) ≤ max C1 C2 * Real.exp (-(min ω1 ω2 * t)) :=
    mul_le_mul (le_max_right _ _) (Real.exp_le_exp.2 (neg_le_neg (mul_le_mul_of_nonneg_right (min_le_right _ _) ht))) (Real.exp_pos _).le
      (le_max_of_le_left hC1.le)
  have hx := fun s => linFlow_deriv (bedCL a β f μ κ A B W) v s
  have d2 := h2 (fun s => (linFlow (bedCL a β f μ κ A B W) v s).1) t (fun s _ => ((ContinuousLinearMap.fst ℝ (Fin (r + 1) → ℝ) (ColExc r z)).hasFDerivAt.comp_hasDerivAt s (hx s)).hasDerivWithinAt) t ⟨ht, le_rfl⟩
  have d1 := h1 (fun s => (linFlow (bedCL a β f μ κ A B W) v s).2) t (fun s _ => ((ContinuousLinearMap.snd ℝ (Fin (r + 1) → ℝ) (ColExc r z)).hasFDerivAt.comp_hasDerivAt s (hx s)).hasDerivWithinAt) t ⟨ht, le_rfl⟩
  simp only [linFlow_zero] at d1 d2
  refine norm_prod_le_iff.2 ⟨d2.trans ?_, d1.trans ?_⟩
  · exact mul_le_mul e2 (norm_fst_le v) (norm_nonneg _) (by positivity)
  · exact mul_le_mul e1 (norm_snd_le v) (norm_nonneg _) (by positivity)

theorem bed_local (g : Spec.BeadGrid jac B W) (hA : Spec.MovesAll A) (hG : AxialForm A G) (hφ : HasDerivAt φ a 0) (h0 : φ 0 = 0)
    (ha : 0 < a) (hβ : 0 < α * a + b) (hf : 0 < f) (hμ : 0 < μ) (hκ : 0 < κ) :
    ∃ δ C ω : ℝ, 0 < δ ∧ 0 < C ∧ 0 < ω ∧ ∀ (x : ℝ → BedExc r z) (T : ℝ),
      (∀ t ∈ Icc 0 T, HasDerivWithinAt x (bedRhs φ α b f μ κ A B W (x t)) (Icc 0 T) t) → ‖x 0‖ ≤ δ →
      ∀ t ∈ Icc 0 T, ‖x t‖ ≤ C * Real.exp (-(ω * t)) * ‖x 0‖ := by
  obtain ⟨C, ω, hC, hω, hM⟩ := bed_settle (a := a) (μ := μ) g hA hG ha hβ hf hμ hκ
  obtain ⟨δ, hδ, hx⟩ := local_settle hω hC hM (bed_small (α := α) (f := f) (μ := μ) (B := B) (W := W) hφ h0)
  refine ⟨δ, 2 * C, ω / 4, hδ, by positivity, by positivity, fun x T hd hx0 t ht => ?_⟩
  exact hx x T (fun s hs => by rw [← bed_split]; exact hd s hs) hx0 t ht

/-- The rates depend on the isotherm at the excesses only. -/
theorem bed_congr {φ' : ℝ → ℝ} {v : BedExc r z} {ρ : ℝ} (hv : ‖v‖ ≤ ρ) (h : ∀ q, |q| ≤ ρ → φ' q = φ q) :
    bedRhs φ' α b f μ κ A B W v = bedRhs φ α b f μ κ A B W v := by
  have h1 : ∀ k, φ' (v.1 k) = φ (v.1 k) := fun k => h _ ((norm_le_pi_norm v.1 k).trans ((norm_fst_le v).trans hv))
  have h2 : ∀ w k, φ' ((v.2 w).1 k) = φ ((v.2 w).1 k) := fun w k =>
    h _ ((norm_le_pi_norm (v.2 w).1 k).trans ((norm_fst_le (v.2 w)).trans ((norm_le_pi_norm v.2 w).trans ((norm_snd_le v).trans hv))))
  simp only [bedRhs, tankRhs, tankPsi, h1, h2]

theorem bed_lip (hφ : LocallyLipschitz φ) : LocallyLipschitz (bedRhs φ α b f μ κ A B W) := by
  have hq : ∀ k : Fin (r + 1), LocallyLipschitz fun v : BedExc r z => v.1 k := fun k => by
    have : ContDiff ℝ 1 fun v : BedExc r z => v.1 k := by fun_prop
    exact this.locallyLipschitz
  have hq2 : ∀ (w : Fin z) (k : Fin (r + 1)), LocallyLipschitz fun v : BedExc r z => (v.2 w).1 k := fun w k => by
    have : ContDiff ℝ 1 fun v : BedExc r z => (v.2 w).1 k := by fun_prop
    exact this.locallyLipschitz
  have hc : ∀ w : Fin z, LocallyLipschitz fun v : BedExc r z => (v.2 w).2 := fun w => by
    have : ContDiff ℝ 1 fun v : BedExc r z => (v.2 w).2 := by fun_prop
    exact this.locallyLipschitz
  have hpsi : ∀ {g : BedExc r z → ℝ}, LocallyLipschitz g → LocallyLipschitz fun v => tankPsi φ α b (g v) := fun hg =>
    lip_add (lip_mul (lip_const _) (hφ.comp hg)) (lip_mul (lip_const _) hg)
  have htank : ∀ {g : BedExc r z → Fin (r + 1) → ℝ} {c : BedExc r z → ℝ} (μ : ℝ), (∀ k, LocallyLipschitz fun v => g v k) → LocallyLipschitz c →
      LocallyLipschitz fun v => tankRhs φ α b f μ B W (g v, c v) := by
    intro g c μ hg hc
    have hfl : LocallyLipschitz fun v => f * (c v - φ (g v (Fin.last r))) := lip_mul (lip_const _) (lip_sub hc (hφ.comp (hg _)))
    refine LocallyLipschitz.prodMk (lip_pi fun k => ?_) (lip_neg (lip_mul (lip_const _) hfl))
    have hr : ∀ k, LocallyLipschitz fun v => ∑ l, B k l * tankPsi φ α b (g v l) := fun k =>
      lip_sum _ fun l _ => lip_mul (lip_const _) (hpsi (hg l))
    by_cases hk : k = Fin.last r
    · simp only [if_pos hk]
      exact lip_div (lip_sub hfl (lip_sum _ fun j _ => lip_mul (lip_const _) (hr _))) _
    · simp only [if_neg hk]
      exact hr k
  have hfst : LocallyLipschitz (Prod.fst : (Fin (r + 1) → ℝ) × ℝ → _) := LipschitzWith.prod_fst.locallyLipschitz
  refine LocallyLipschitz.prodMk (hfst.comp (htank 1 hq (lip_const 0))) (lip_pi fun w => ?_)
  have h1 := htank (g := fun v => (v.2 w).1) (c := fun v => (v.2 w).2) μ (hq2 w) (hc w)
  have h2 : LocallyLipschitz fun v : BedExc r z => ((0 : Fin (r + 1) → ℝ), κ * ∑ w' : Fin z, A w.succ w'.succ * (v.2 w').2) :=
    LocallyLipschitz.prodMk (LocallyLipschitz.const _) (lip_mul (lip_const _) (lip_sum _ fun w' _ => lip_mul (lip_const _) (hc w')))
  exact LocallyLipschitz.sub h1 h2

/-- From every state near the exhausted one there is a run for all time. -/
theorem bed_run (g : Spec.BeadGrid jac B W) (hA : Spec.MovesAll A) (hG : AxialForm A G) (hs : ContDiffAt ℝ 1 φ 0) (hφ : HasDerivAt φ a 0)
    (h0 : φ 0 = 0) (ha : 0 < a) (hβ : 0 < α * a + b) (hf : 0 < f) (hμ : 0 < μ) (hκ : 0 < κ) :
    ∃ δ : ℝ, 0 < δ ∧ ∀ v : BedExc r z, ‖v‖ ≤ δ → ∃ x : ℝ → BedExc r z, x 0 = v ∧
      ∀ T, ∀ t ∈ Icc 0 T, HasDerivWithinAt x (bedRhs φ α b f μ κ A B W (x t)) (Icc 0 T) t := by
  obtain ⟨K, t, ht, hK⟩ := hs.exists_lipschitzOnWith
  obtain ⟨d, hd, hdt⟩ := Metric.mem_nhds_iff.1 ht
  set ρ := d / 2 with hρ
  have hρ0 : 0 < ρ := half_pos hd
  set c : ℝ → ℝ := fun q => max (-ρ) (min ρ q) with hc
  have hcin : ∀ q, c q ∈ t := fun q => hdt (by
    rw [Metric.mem_ball, Real.dist_eq, sub_zero]
    refine lt_of_le_of_lt (abs_le.2 ⟨le_max_left _ _, max_le (by linarith) (min_le_left _ _)⟩) (half_lt_self hd))
  have hcl : LipschitzWith 1 c := ((LipschitzWith.id.const_min ρ).const_max (-ρ))
  have hce : ∀ q, |q| ≤ ρ → c q = q := fun q hq => by
    rw [hc]
    simp only
    rw [min_eq_right (abs_le.1 hq).2, max_eq_right (abs_le.1 hq).1]
  have hlip : LipschitzWith K (fun q => φ (c q)) := by
    refine LipschitzWith.of_dist_le_mul fun x y => ?_
    have h1 := hK.dist_le_mul (c x) (hcin x) (c y) (hcin y)
    have h2 := hcl.dist_le_mul x y
    rw [NNReal.coe_one, one_mul] at h2
    exact h1.trans (mul_le_mul_of_nonneg_left h2 K.2)
  have hφ' : HasDerivAt (fun q => φ (c q)) a 0 := by
    refine hφ.congr_of_eventuallyEq ?_
    filter_upwards [Metric.ball_mem_nhds (0 : ℝ) hρ0] with q hq
    rw [Metric.mem_ball, Real.dist_eq, sub_zero] at hq
    rw [hce q hq.le]
  obtain ⟨δ, C, ω, hδ, hC, hω, hx⟩ := bed_local g hA hG hφ' (by show φ (c 0) = 0; rw [hce 0 (by simpa using hρ0.le), h0]) ha hβ hf hμ hκ
  refine ⟨min δ (ρ / C), lt_min hδ (div_pos hρ0 hC), fun v hv => ?_⟩
  have hb : ∀ T : ℝ, 0 ≤ T → ∀ y : ℝ → BedExc r z, y 0 = v →
      (∀ t ∈ Icc 0 T, HasDerivWithinAt y (bedRhs (fun q => φ (c q)) α b f μ κ A B W (y t)) (Icc 0 T) t) → ‖y T‖ ≤ ρ := by
    intro T hT y hy0 hy
    have h1 := hx y T hy (by rw [hy0]; exact hv.trans (min_le_left _ _)) T ⟨hT, le_rfl⟩
    have h2 : Real.exp (-(ω * T)) ≤ 1 := Real.exp_le_one_iff.2 (by have := mul_nonneg hω.le hT; linarith)
    have h3 : C * ‖v‖ ≤ ρ := by
      have := mul_le_mul_of_nonneg_left (hv.trans (min_le_right _ _)) hC.le
      rwa [mul_div_cancel₀ _ hC.ne'] at this
    rw [hy0] at h1
    have h4 : C * Real.exp (-(ω * T)) * ‖v‖ ≤ C * 1 * ‖v‖ :=
      mul_le_mul_of_nonneg_right (mul_le_mul_of_nonneg_left h2 hC.le) (norm_nonneg v)
    linarith
  obtain ⟨y, hy0, hy⟩ := global_auto (bed_lip (α := α) (b := b) (f := f) (μ := μ) (κ := κ) (A := A) (B := B) (W := W) hlip.locallyLipschitz) hb
  refine ⟨y, hy0, fun T t ht => ?_⟩
  have hbt := hb t ht.1 y hy0 (fun s hs => (hy s hs.1).mono Icc_subset_Ici_self)
  rw [← bed_congr (φ' := fun q => φ (c q)) hbt (fun q hq => by rw [hce q hq])]
  exact (hy t ht.1).mono Icc_subset_Ici_self

end WTM
