import Verif.Lemmas.Passive
import Verif.Props.GacWaver

/-! Property C283: a carbon column with a linear isotherm and one compound, on a bed of one element. While no bead is counted as loaded below zero, two runs
differ as two runs of a linear column: what wavers in the influent is not amplified, and vessels that change places (lead_lag_class.py:393-509) settle. -/
set_option autoImplicit false
namespace WTM
open BigOperators Set Topology Filter

section
variable {r n : ℕ} {D : GacDim 1 r (n + 1)} {jac : Fin r → ℝ} {leg : Fin n → ℝ} {fo fa S : ℝ}

/-- Specification: a column with one compound and a linear isotherm, on the grids of the code with one axial element, with constant factors for fouling and
tortuosity. -/
structure Spec.LinearCarbon (D : GacDim 1 r (n + 1)) (jac : Fin r → ℝ) (leg : Fin n → ℝ) (fo fa : ℝ) : Prop where
  ok : Spec.OneOk D
  beads : Spec.BeadGrid jac D.br D.wr
  zeros : Spec.ShJacobiRoots n 1 1 leg
  axial : D.az = aMat (axialNodes leg)
  flow : 0 < D.dg1
  linear : D.xn 0 = 1
  fouling : 0 < fo
  tortuosity : 0 ≤ fa

/-- Specification: a run on `[0, T]` under the influent `s`. -/
def Spec.CarbonRun (D : GacDim 1 r (n + 1)) (fo fa T : ℝ) (s : ℝ → ℝ) (y : ℝ → GacState 1 r (n + 1)) : Prop :=
  Spec.Solves gacComp (fun t u => gacRhs D (fun _ => s t) (fun _ => fo) (fun _ => fa) u) 0 T y

/-- Specification: no bead below the inlet is loaded below zero. -/
def Spec.NoDebt (T : ℝ) (y : ℝ → GacState 1 r (n + 1)) : Prop :=
  ∀ t ∈ Icc 0 T, ∀ (k : Fin (r + 1)) w, w ≠ 0 → 0 ≤ y t 0 k.castSucc w

/-- Specification: two states below the inlet differ by no more than `ε`. -/
def Spec.GacNear (ε : ℝ) (u u' : GacState 1 r (n + 1)) : Prop :=
  ∀ a w, w ≠ 0 → |u 0 a w - u' 0 a w| ≤ ε

/-- Specification: the effluent. -/
def Spec.gacOut (u : GacState 1 r (n + 1)) : ℝ := u 0 (Fin.last (r + 1)) (Fin.last (n + 1))

theorem LinearCarbon.spent (h : Spec.LinearCarbon D jac leg fo fa) : Spec.SpentSetting D jac 1 fo fa :=
  ⟨h.ok, h.beads, by rw [h.axial]; exact .single h.zeros, h.flow, one_pos, h.fouling, h.tortuosity⟩

/-- Difference of two states below the inlet. -/
def gacDiff (u u' : GacState 1 r (n + 1)) : ColExc r (n + 1) :=
  fun w => (fun k => u 0 k.castSucc w.succ - u' 0 k.castSucc w.succ, u 0 (Fin.last (r + 1)) w.succ - u' 0 (Fin.last (r + 1)) w.succ)

theorem gacDiff_norm {ε : ℝ} (hε : 0 ≤ ε) {u u' : GacState 1 r (n + 1)} : ‖gacDiff u u'‖ ≤ ε ↔ Spec.GacNear ε u u' := by
  unfold Spec.GacNear
  rw [pi_norm_le_iff_of_nonneg hε]
  simp only [norm_prod_le_iff, pi_norm_le_iff_of_nonneg hε, gacDiff, Real.norm_eq_abs]
  constructor
  · intro h a w hw
    obtain ⟨w', rfl⟩ := Fin.exists_succ_eq.2 hw
    refine Fin.lastCases (h w').2 (fun k => (h w').1 k) a
  · intro h w
    exact ⟨fun k => h _ _ (Fin.succ_ne_zero w), h _ _ (Fin.succ_ne_zero w)⟩

/-- Rates of a column with a linear isotherm. -/
noncomputable abbrev linCL (D : GacDim 1 r (n + 1)) (fo fa : ℝ) : ColExc r (n + 1) →L[ℝ] ColExc r (n + 1) :=
  colCL fo (D.bedp 0 * fa * fo + D.beds 0) (D.stdv 0 * D.dgI 0) (3 / D.dgI 0) D.dg1 D.az D.br D.wr

theorem lin_consts (h : Spec.LinearCarbon D jac leg fo fa) : 0 < D.bedp 0 * fa * fo + D.beds 0 ∧ 0 < D.stdv 0 * D.dgI 0 ∧ 0 < 3 / D.dgI 0 := by
  have := h.ok.beds; have := h.ok.bedp; have := h.ok.stdv; have := h.ok.dgI; have := h.fouling; have := h.tortuosity
  exact ⟨by positivity, by positivity, by positivity⟩

/-- The rates below the inlet, counted from a column exhausted by one unit. -/
theorem lin_rates (h : Spec.LinearCarbon D jac leg fo fa) (s : ℝ) {u : GacState 1 r (n + 1)} (hu : ∀ (k : Fin (r + 1)) w, w ≠ 0 → 0 ≤ u 0 k.castSucc w) :
    ((fun w => ((fun k => gacRhs D (fun _ => s) (fun _ => fo) (fun _ => fa) u 0 k.castSucc w.succ),
        gacRhs D (fun _ => s) (fun _ => fo) (fun _ => fa) u 0 (Fin.last (r + 1)) w.succ)) : ColExc r (n + 1)) =
    linCL D fo fa (gacExc 1 (Spec.spentLoad (D.xn 0) fo 1) u).2 + (s - 1) • fun w => ((0 : Fin (r + 1) → ℝ), -(D.dg1 * D.az w.succ 0)) := by
  have e := congrArg Prod.snd (gac_rates_in (LinearCarbon.spent h) s u)
  dsimp only at e
  rw [e, Prod.snd_add, Prod.smul_snd]
  congr 1
  funext w
  set q := Spec.spentLoad (D.xn 0) fo 1 with hq
  show tankRhs _ _ _ _ _ _ _ _ - _ = _
  rw [colCL_apply, tank_split (a := fo)]
  have hf : ∀ x, 0 ≤ x → freund (D.xn 0) x = x := fun x hx => by
    unfold freund
    rw [h.linear, max_eq_left hx, div_one, Real.rpow_one]
  have hq0 : 0 ≤ q := (spent_pos one_pos h.fouling _).le
  have z : (fun k : Fin (r + 1) => gacIso (D.xn 0) fo q ((gacExc 1 q u).2 w |>.1 k) - fo * ((gacExc 1 q u).2 w).1 k) = 0 := by
    funext k
    show gacIso (D.xn 0) fo q (u 0 k.castSucc w.succ - q) - fo * (u 0 k.castSucc w.succ - q) = 0
    unfold gacIso
    rw [add_sub_cancel, hf _ (hu k _ (Fin.succ_ne_zero w)), hf _ hq0]
    ring
  rw [z]
  have z' : (((0 : Fin (r + 1) → ℝ), (0 : ℝ)) : (Fin (r + 1) → ℝ) × ℝ) = 0 := rfl
  rw [z', map_zero, add_zero]

theorem lin_moves (h : Spec.LinearCarbon D jac leg fo fa) : Spec.MovesAll D.az := axial_moves (LinearCarbon.spent h).axial

/-- The difference of two runs is a run of the linear column, pushed by the difference of the influents. -/
theorem lin_drive (h : Spec.LinearCarbon D jac leg fo fa) {T : ℝ} {s s' : ℝ → ℝ} {y y' : ℝ → GacState 1 r (n + 1)}
    (hy : Spec.CarbonRun D fo fa T s y) (hy' : Spec.CarbonRun D fo fa T s' y') (hn : Spec.NoDebt T y) (hn' : Spec.NoDebt T y') :
    ∀ t ∈ Icc 0 T, HasDerivWithinAt (fun t => gacDiff (y t) (y' t))
      (linCL D fo fa (gacDiff (y t) (y' t)) - (s t - s' t) • linCL D fo fa (fun _ => (fun _ => 1 / fo, 1))) (Icc 0 T) t := by
  intro t ht
  have a1 := lin_rates h (s t) (hn t ht)
  have a2 := lin_rates h (s' t) (hn' t ht)
  have d1 : gacDiff (y t) (y' t) = (gacExc 1 (Spec.spentLoad (D.xn 0) fo 1) (y t)).2 - (gacExc 1 (Spec.spentLoad (D.xn 0) fo 1) (y' t)).2 := by
    funext w
    refine Prod.ext (funext fun k => ?_) ?_
    · simp [gacDiff, gacExc]
    · simp [gacDiff, gacExc]
  have p1 : linCL D fo fa (fun _ => (fun _ => 1 / fo, 1)) = fun w => ((0 : Fin (r + 1) → ℝ), D.dg1 * D.az w.succ 0) := by
    funext w
    rw [colCL_full h.beads h.fouling.ne']
    have := (lin_moves h (fun _ => 1)).2 (fun _ => rfl) w.succ (Fin.succ_ne_zero w)
    simp only [mul_one] at this
    rw [Fin.sum_univ_succ] at this
    refine Prod.ext rfl ?_
    show -(D.dg1 * _) = _
    rw [← mul_neg]
    congr 1
    linarith
  have key : linCL D fo fa (gacDiff (y t) (y' t)) - (s t - s' t) • linCL D fo fa (fun _ => (fun _ => 1 / fo, 1)) =
      ((fun w => ((fun k => gacRhs D (fun _ => s t) (fun _ => fo) (fun _ => fa) (y t) 0 k.castSucc w.succ),
        gacRhs D (fun _ => s t) (fun _ => fo) (fun _ => fa) (y t) 0 (Fin.last (r + 1)) w.succ)) : ColExc r (n + 1)) -
      ((fun w => ((fun k => gacRhs D (fun _ => s' t) (fun _ => fo) (fun _ => fa) (y' t) 0 k.castSucc w.succ),
        gacRhs D (fun _ => s' t) (fun _ => fo) (fun _ => fa) (y' t) 0 (Fin.last (r + 1)) w.succ)) : ColExc r (n + 1)) := by
    rw [a1, a2, d1, map_sub, p1]
    have e : (fun w : Fin (n + 1) => ((0 : Fin (r + 1) → ℝ), -(D.dg1 * D.az w.succ 0))) = -fun w : Fin (n + 1) => ((0 : Fin (r + 1) → ℝ), D.dg1 * D.az w.succ 0) := by
      funext w
      refine Prod.ext ?_ rfl
      simp
    rw [e]
    module
  rw [key]
  refine hasDerivWithinAt_pi.2 fun w => HasDerivWithinAt.prodMk (hasDerivWithinAt_pi.2 fun k => ?_) ?_
  · exact (hy t ht (0, k.castSucc, w.succ)).sub (hy' t ht (0, k.castSucc, w.succ))
  · exact (hy t ht (0, Fin.last (r + 1), w.succ)).sub (hy' t ht (0, Fin.last (r + 1), w.succ))

theorem lin_energy_le (D : GacDim 1 r (n + 1)) (fo : ℝ) (G : Fin (n + 1) → Fin (n + 1) → ℝ) : ∃ K : ℝ, 0 < K ∧
    ∀ u : ColExc r (n + 1), cdot fo (3 / D.dgI 0) G D.wr u u ≤ K * ‖u‖ ^ 2 := by
  refine quad_dominates (Q := fun u : ColExc r (n + 1) => ‖u‖ ^ 2) (by fun_prop) (by unfold cdot tdot wdot; fun_prop) (fun u => sq_nonneg _)
    (fun u hu => norm_eq_zero.1 (pow_eq_zero_iff two_ne_zero |>.1 hu)) (fun c u => ?_) (fun c u => ?_)
  · rw [norm_smul, mul_pow, Real.norm_eq_abs, sq_abs]
  · rw [cdot_scale]; ring

theorem lin_norm_le (h : Spec.LinearCarbon D jac leg fo fa) {G : Fin (n + 1) → Fin (n + 1) → ℝ} (hG : AxialForm D.az G) : ∃ k : ℝ, 0 < k ∧
    ∀ u : ColExc r (n + 1), ‖u‖ ^ 2 ≤ k * cdot fo (3 / D.dgI 0) G D.wr u u := by
  obtain ⟨-, -, hμ⟩ := lin_consts h
  refine quad_dominates (Q := fun u : ColExc r (n + 1) => cdot fo (3 / D.dgI 0) G D.wr u u) (by unfold cdot tdot wdot; fun_prop) (by fun_prop)
    (fun u => (cdot_pos h.beads hG h.fouling hμ u).1) (fun u => (cdot_pos h.beads hG h.fouling hμ u).2) (fun c u => ?_) (fun c u => ?_)
  · rw [cdot_scale]; ring
  · rw [norm_smul, mul_pow, Real.norm_eq_abs, sq_abs]

/-- C283. Two runs: the square of the difference of the effluents, added up to any time, is at most that of the influents and a multiple of the square of the
difference `ε` at the start, whatever the numbers of nodes. -/
theorem c283_square (h : Spec.LinearCarbon D jac leg fo fa) : ∃ K : ℝ, 0 < K ∧
    ∀ (ε T : ℝ) (s s' : ℝ → ℝ) (y y' : ℝ → GacState 1 r (n + 1)), 0 ≤ T → ContinuousOn s (Icc 0 T) → ContinuousOn s' (Icc 0 T) →
      Spec.CarbonRun D fo fa T s y → Spec.CarbonRun D fo fa T s' y' → Spec.NoDebt T y → Spec.NoDebt T y' → Spec.GacNear ε (y 0) (y' 0) →
      ∫ t in (0 : ℝ)..T, (Spec.gacOut (y t) - Spec.gacOut (y' t)) ^ 2 ≤ (∫ t in (0 : ℝ)..T, (s t - s' t) ^ 2) + K * ε ^ 2 := by
  obtain ⟨G, hG, hP⟩ := passive_legendre h.zeros
  rw [← h.axial] at hG hP
  obtain ⟨hβ, hf, hμ⟩ := lin_consts h
  have hκ := h.flow
  obtain ⟨K, hK, hKb⟩ := lin_energy_le D fo G
  refine ⟨K / D.dg1, by positivity, fun ε T s s' y y' hT hs hs' hy hy' hn hn' hε => ?_⟩
  have hbal := col_balance h.beads hG hP h.fouling hβ hf hμ hκ hT (d := fun t => s t - s' t) (hs.sub hs') (lin_drive h hy hy' hn hn')
  have hε0 : 0 ≤ ε := (abs_nonneg _).trans (hε 0 1 one_ne_zero)
  have h1 := (hKb (gacDiff (y 0) (y' 0))).trans (mul_le_mul_of_nonneg_left (pow_le_pow_left₀ (norm_nonneg _) ((gacDiff_norm hε0).2 hε) 2) hK.le)
  have h2 := (cdot_pos h.beads hG h.fouling hμ (gacDiff (y T) (y' T))).1
  refine le_of_mul_le_mul_left ?_ hκ
  have e : D.dg1 * ((∫ t in (0 : ℝ)..T, (s t - s' t) ^ 2) + K / D.dg1 * ε ^ 2) = D.dg1 * (∫ t in (0 : ℝ)..T, (s t - s' t) ^ 2) + K * ε ^ 2 := by
    rw [mul_add, ← mul_assoc, mul_div_cancel₀ _ hκ.ne']
  rw [e]
  have e2 : (∫ t in (0 : ℝ)..T, (Spec.gacOut (y t) - Spec.gacOut (y' t)) ^ 2) = ∫ t in (0 : ℝ)..T, (gacDiff (y t) (y' t) (Fin.last n)).2 ^ 2 := rfl
  rw [e2]
  linarith

/-- C283. Two runs under one influent forget their starts at a rate of the column alone. -/
theorem c283_forgets (h : Spec.LinearCarbon D jac leg fo fa) : ∃ C ω : ℝ, 0 < C ∧ 0 < ω ∧
    ∀ (ε T : ℝ) (s : ℝ → ℝ) (y y' : ℝ → GacState 1 r (n + 1)), Spec.CarbonRun D fo fa T s y → Spec.CarbonRun D fo fa T s y' → Spec.NoDebt T y →
      Spec.NoDebt T y' → Spec.GacNear ε (y 0) (y' 0) → ∀ t ∈ Icc 0 T, Spec.GacNear (C * Real.exp (-(ω * t)) * ε) (y t) (y' t) := by
  obtain ⟨G, hG, -⟩ := passive_legendre h.zeros
  rw [← h.axial] at hG
  obtain ⟨hβ, hf, hμ⟩ := lin_consts h
  obtain ⟨C, ω, hC, hω, hx⟩ := column_settle h.beads (lin_moves h) hG h.fouling hβ hf hμ h.flow
  refine ⟨C, ω, hC, hω, fun ε T s y y' hy hy' hn hn' hε t ht => ?_⟩
  have hε0 : 0 ≤ ε := (abs_nonneg _).trans (hε 0 1 one_ne_zero)
  have h1 := hx (fun t => gacDiff (y t) (y' t)) T (fun t ht => by
    have := lin_drive h hy hy' hn hn' t ht
    rwa [sub_self, zero_smul, sub_zero] at this) t ht
  exact (gacDiff_norm (by positivity)).1 (h1.trans (mul_le_mul_of_nonneg_left ((gacDiff_norm hε0).2 hε) (by positivity)))

/-- Specification: a vessel that starts from `u0`, is fed with `feed` for a time `S`, then changes places and is fed with `raw` for a time `S`. `y` is its
course as lag vessel and `x` its course as lead vessel, both from time zero, and no bead of it is loaded below zero. -/
structure Spec.CarbonVessel (D : GacDim 1 r (n + 1)) (fo fa S : ℝ) (raw feed : ℝ → ℝ) (u0 : GacState 1 r (n + 1)) (y x : ℝ → GacState 1 r (n + 1)) :
    Prop where
  start : y 0 = u0
  lag : Spec.CarbonRun D fo fa S feed y
  swap : x 0 = y S
  lead : Spec.CarbonRun D fo fa S raw x
  debt : Spec.NoDebt S y ∧ Spec.NoDebt S x

/-- Specification: vessels of which each is fed, as lag vessel, with the effluent of the one before as lead vessel. -/
structure Spec.CarbonRelay (D : GacDim 1 r (n + 1)) (fo fa S : ℝ) (raw : ℝ → ℝ) (u0 : GacState 1 r (n + 1)) (feed : ℕ → ℝ → ℝ)
    (y x : ℕ → ℝ → GacState 1 r (n + 1)) : Prop where
  vessel : ∀ i, Spec.CarbonVessel D fo fa S raw (feed i) u0 (y i) (x i)
  handed : ∀ i, ∀ t ∈ Icc 0 S, feed (i + 1) t = Spec.gacOut (x i t)

theorem carbonRun_mono {T T' : ℝ} {s : ℝ → ℝ} {y : ℝ → GacState 1 r (n + 1)} (hT : T' ≤ T) (hy : Spec.CarbonRun D fo fa T s y) :
    Spec.CarbonRun D fo fa T' s y := fun t ht a => (hy t ⟨ht.1, ht.2.trans hT⟩ a).mono (Icc_subset_Icc le_rfl hT)

theorem noDebt_mono {T T' : ℝ} {y : ℝ → GacState 1 r (n + 1)} (hT : T' ≤ T) (hy : Spec.NoDebt T y) : Spec.NoDebt T' y :=
  fun t ht => hy t ⟨ht.1, ht.2.trans hT⟩

/-- Energy of the difference of two vessels under one raw water: how much there is before the swap, how much of it is left after it, and how much of it
comes out. -/
theorem carbon_energy (h : Spec.LinearCarbon D jac leg fo fa) {G : Fin (n + 1) → Fin (n + 1) → ℝ} (hG : AxialForm D.az G) (hP : PassiveForm D.az G)
    (hS : 0 < S) : ∃ ρ : ℝ, 0 < ρ ∧ ρ < 1 ∧
    ∀ (raw feed feed' : ℝ → ℝ) (u0 : GacState 1 r (n + 1)) (y x y' x' : ℝ → GacState 1 r (n + 1)),
      Spec.CarbonVessel D fo fa S raw feed u0 y x → Spec.CarbonVessel D fo fa S raw feed' u0 y' x' →
      ContinuousOn feed (Icc 0 S) → ContinuousOn feed' (Icc 0 S) →
        (∀ t ∈ Icc 0 S, cdot fo (3 / D.dgI 0) G D.wr (gacDiff (y t) (y' t)) (gacDiff (y t) (y' t)) ≤
            D.dg1 * ∫ t in (0 : ℝ)..S, (feed t - feed' t) ^ 2) ∧
        (∀ t ∈ Icc 0 S, cdot fo (3 / D.dgI 0) G D.wr (gacDiff (x t) (x' t)) (gacDiff (x t) (x' t)) ≤
            D.dg1 * ∫ t in (0 : ℝ)..S, (feed t - feed' t) ^ 2) ∧
        ∫ t in (0 : ℝ)..S, (Spec.gacOut (x t) - Spec.gacOut (x' t)) ^ 2 ≤ ρ * ∫ t in (0 : ℝ)..S, (feed t - feed' t) ^ 2 := by
  obtain ⟨hβ, hf, hμ⟩ := lin_consts h
  have hκ := h.flow
  obtain ⟨Λ, hΛ, hk⟩ := col_keeps (β := D.bedp 0 * fa * fo + D.beds 0) (f := D.stdv 0 * D.dgI 0) (κ := D.dg1) h.beads hG h.fouling hμ
  have hΛS : 0 < Λ * S := mul_pos hΛ hS
  refine ⟨1 - Real.exp (-(Λ * S)), ?_, ?_, fun raw feed feed' u0 y x y' x' hv hv' hfc hfc' => ?_⟩
  · have : Real.exp (-(Λ * S)) < 1 := by rw [Real.exp_lt_one_iff]; linarith
    linarith
  · linarith [Real.exp_pos (-(Λ * S))]
  set I := ∫ t in (0 : ℝ)..S, (feed t - feed' t) ^ 2 with hI
  have hd : ∀ T ≤ S, ∀ t ∈ Icc 0 T, HasDerivWithinAt (fun t => gacDiff (x t) (x' t)) (linCL D fo fa (gacDiff (x t) (x' t))) (Icc 0 T) t := by
    intro T hT t ht
    have := lin_drive h (carbonRun_mono hT hv.lead) (carbonRun_mono hT hv'.lead) (noDebt_mono hT hv.debt.2) (noDebt_mono hT hv'.debt.2) t ht
    rwa [sub_self, zero_smul, sub_zero] at this
  have hout : ∀ (u u' : ℝ → GacState 1 r (n + 1)) (T : ℝ), 0 ≤ T → 0 ≤ D.dg1 * ∫ t in (0 : ℝ)..T, (gacDiff (u t) (u' t) (Fin.last n)).2 ^ 2 :=
    fun u u' T hT => mul_nonneg hκ.le (intervalIntegral.integral_nonneg hT fun t _ => sq_nonneg _)
  have hlag : ∀ t ∈ Icc 0 S, cdot fo (3 / D.dgI 0) G D.wr (gacDiff (y t) (y' t)) (gacDiff (y t) (y' t)) ≤ D.dg1 * I := by
    intro T hT
    have hc := hfc.sub hfc'
    have h1 := col_balance h.beads hG hP h.fouling hβ hf hμ hκ hT.1 (d := fun t => feed t - feed' t) (hc.mono (Icc_subset_Icc le_rfl hT.2))
      (lin_drive h (carbonRun_mono hT.2 hv.lag) (carbonRun_mono hT.2 hv'.lag) (noDebt_mono hT.2 hv.debt.1) (noDebt_mono hT.2 hv'.debt.1))
    have h3 : gacDiff (y 0) (y' 0) = 0 := by
      rw [hv.start, hv'.start]
      funext w
      exact Prod.ext (funext fun k => sub_self _) (sub_self _)
    have h4 : cdot fo (3 / D.dgI 0) G D.wr (0 : ColExc r (n + 1)) 0 = 0 := by
      have := cdot_scale (a := fo) (μ := 3 / D.dgI 0) (G := G) (W := D.wr) 0 0 (0 : ColExc r (n + 1)) 0
      simpa using this
    rw [h3, h4, zero_add] at h1
    have h5 : (∫ t in (0 : ℝ)..T, (feed t - feed' t) ^ 2) ≤ I := by
      have hi : ∀ a b, a ∈ Icc 0 S → b ∈ Icc 0 S → IntervalIntegrable (fun t => (feed t - feed' t) ^ 2) MeasureTheory.volume a b := fun a b ha hb =>
        ((hc.pow 2).mono (uIcc_subset_Icc ha hb)).intervalIntegrable
      have h6 := intervalIntegral.integral_add_adjacent_intervals (hi 0 T ⟨le_rfl, hS.le⟩ hT) (hi T S hT ⟨hS.le, le_rfl⟩)
      have h7 : 0 ≤ ∫ t in T..S, (feed t - feed' t) ^ 2 := intervalIntegral.integral_nonneg hT.2 fun t _ => sq_nonneg _
      rw [hI, ← h6]
      linarith
    have h8 := mul_le_mul_of_nonneg_left h5 hκ.le
    have h9 := hout y y' T hT.1
    linarith
  have hbal : ∀ T, 0 ≤ T → T ≤ S → _ := fun T h0 hT => col_balance h.beads hG hP h.fouling hβ hf hμ hκ (d := fun _ => 0) h0 continuousOn_const
    (fun t ht => by rw [zero_smul, sub_zero]; exact hd T hT t ht)
  simp only [ne_eq, OfNat.ofNat_ne_zero, not_false_eq_true, zero_pow, intervalIntegral.integral_zero, mul_zero, add_zero] at hbal
  have hswap : cdot fo (3 / D.dgI 0) G D.wr (gacDiff (x 0) (x' 0)) (gacDiff (x 0) (x' 0)) ≤ D.dg1 * I := by
    rw [hv.swap, hv'.swap]
    exact hlag S ⟨hS.le, le_rfl⟩
  refine ⟨hlag, fun t ht => ?_, ?_⟩
  · have h1 := hbal t ht.1 ht.2
    have h2 := hout x x' t ht.1
    linarith
  · have h1 := hbal S hS.le le_rfl
    have h2 := hk _ S hS.le (hd S le_rfl)
    have h3 := mul_le_mul_of_nonneg_left hswap (sub_nonneg.2 (Real.exp_le_one_iff.2 (by linarith : -(Λ * S) ≤ 0)))
    refine le_of_mul_le_mul_left ?_ hκ
    have e : (∫ t in (0 : ℝ)..S, (Spec.gacOut (x t) - Spec.gacOut (x' t)) ^ 2) = ∫ t in (0 : ℝ)..S, (gacDiff (x t) (x' t) (Fin.last n)).2 ^ 2 := rfl
    rw [e]
    linarith

/-- C283. The pass is a contraction in the mean square: of a difference in what two vessels are fed before the swap, less comes out after it, by a factor of the
column and the interval alone. -/
theorem c283_contracts (h : Spec.LinearCarbon D jac leg fo fa) (hS : 0 < S) : ∃ ρ : ℝ, 0 < ρ ∧ ρ < 1 ∧
    ∀ (raw feed feed' : ℝ → ℝ) (u0 : GacState 1 r (n + 1)) (y x y' x' : ℝ → GacState 1 r (n + 1)),
      Spec.CarbonVessel D fo fa S raw feed u0 y x → Spec.CarbonVessel D fo fa S raw feed' u0 y' x' →
      ContinuousOn feed (Icc 0 S) → ContinuousOn feed' (Icc 0 S) →
        ∫ t in (0 : ℝ)..S, (Spec.gacOut (x t) - Spec.gacOut (x' t)) ^ 2 ≤ ρ * ∫ t in (0 : ℝ)..S, (feed t - feed' t) ^ 2 := by
  obtain ⟨G, hG, hP⟩ := passive_legendre h.zeros
  rw [← h.axial] at hG hP
  obtain ⟨ρ, h0, h1, hρ⟩ := carbon_energy h hG hP hS
  exact ⟨ρ, h0, h1, fun raw feed feed' u0 y x y' x' hv hv' hc hc' => (hρ raw feed feed' u0 y x y' x' hv hv' hc hc').2.2⟩

theorem gacOut_continuous {f : ℝ → GacState 1 r (n + 1) → GacState 1 r (n + 1)} {T : ℝ} {x : ℝ → GacState 1 r (n + 1)}
    (hx : Spec.Solves gacComp f 0 T x) : ContinuousOn (fun t => Spec.gacOut (x t)) (Icc 0 T) :=
  fun t ht => (hx t ht (0, Fin.last (r + 1), Fin.last (n + 1))).continuousWithinAt

theorem relay_continuous {raw : ℝ → ℝ} {u0 : GacState 1 r (n + 1)} {feed : ℕ → ℝ → ℝ} {y x : ℕ → ℝ → GacState 1 r (n + 1)}
    (hr : Spec.CarbonRelay D fo fa S raw u0 feed y x) (h0 : ContinuousOn (feed 0) (Icc 0 S)) (i : ℕ) : ContinuousOn (feed i) (Icc 0 S) := by
  cases i with
  | zero => exact h0
  | succ i => exact (gacOut_continuous (hr.vessel i).lead).congr fun t ht => hr.handed i t ht

theorem square_mean {δ : ℝ} (hS : 0 < S) {f f' : ℝ → ℝ} (hf : ContinuousOn f (Icc 0 S)) (hf' : ContinuousOn f' (Icc 0 S))
    (hδ : ∀ t ∈ Icc 0 S, |f t - f' t| ≤ δ) : ∫ t in (0 : ℝ)..S, (f t - f' t) ^ 2 ≤ S * δ ^ 2 := by
  have h1 := intervalIntegral.integral_mono_on (μ := MeasureTheory.volume) hS.le (((hf.sub hf').pow 2).intervalIntegrable_of_Icc hS.le)
    (continuousOn_const.intervalIntegrable_of_Icc hS.le) (g := fun _ => δ ^ 2) fun t ht => by
      have := pow_le_pow_left₀ (abs_nonneg _) (hδ t ht) 2
      rw [sq_abs] at this
      exact this
  rwa [intervalIntegral.integral_const, sub_zero, smul_eq_mul] at h1

/-- C283. Two series of passes under one raw water, from one start: whatever the first feeds, vessel `i` of the one is at all times within `C σ ^ i` times
their difference of vessel `i` of the other, with constants of the column and the interval alone. -/
theorem c283_passes (h : Spec.LinearCarbon D jac leg fo fa) (hS : 0 < S) : ∃ C σ : ℝ, 0 < C ∧ 0 < σ ∧ σ < 1 ∧
    ∀ (δ : ℝ) (raw : ℝ → ℝ) (u0 : GacState 1 r (n + 1)) (feed feed' : ℕ → ℝ → ℝ) (y x y' x' : ℕ → ℝ → GacState 1 r (n + 1)),
      Spec.CarbonRelay D fo fa S raw u0 feed y x → Spec.CarbonRelay D fo fa S raw u0 feed' y' x' → ContinuousOn (feed 0) (Icc 0 S) →
      ContinuousOn (feed' 0) (Icc 0 S) → (∀ t ∈ Icc 0 S, |feed 0 t - feed' 0 t| ≤ δ) →
      ∀ i, ∀ t ∈ Icc 0 S, Spec.GacNear (C * σ ^ i * δ) (y i t) (y' i t) ∧ Spec.GacNear (C * σ ^ i * δ) (x i t) (x' i t) := by
  obtain ⟨G, hG, hP⟩ := passive_legendre h.zeros
  rw [← h.axial] at hG hP
  obtain ⟨ρ, hρ0, hρ1, hρ⟩ := carbon_energy h hG hP hS
  obtain ⟨k, hk, hkb⟩ := lin_norm_le h hG
  have hκ := h.flow
  set σ := Real.sqrt ρ with hσ
  have hσ0 : 0 < σ := Real.sqrt_pos.2 hρ0
  have hσ1 : σ < 1 := by rw [hσ, Real.sqrt_lt' one_pos]; linarith
  have hσ2 : σ ^ 2 = ρ := Real.sq_sqrt hρ0.le
  have hp : 0 < k * D.dg1 * S := by positivity
  set C := Real.sqrt (k * D.dg1 * S) with hC
  have hC0 : 0 < C := Real.sqrt_pos.2 hp
  have hC2 : C ^ 2 = k * D.dg1 * S := Real.sq_sqrt hp.le
  refine ⟨C, σ, hC0, hσ0, hσ1, fun δ raw u0 feed feed' y x y' x' hr hr' h0 h0' hδ => ?_⟩
  have hδ0 : 0 ≤ δ := (abs_nonneg _).trans (hδ 0 ⟨le_rfl, hS.le⟩)
  have hen := fun i => hρ raw (feed i) (feed' i) u0 (y i) (x i) (y' i) (x' i) (hr.vessel i) (hr'.vessel i) (relay_continuous hr h0 i)
    (relay_continuous hr' h0' i)
  have hI : ∀ i, ∫ t in (0 : ℝ)..S, (feed i t - feed' i t) ^ 2 ≤ S * δ ^ 2 * ρ ^ i := by
    intro i
    induction i with
    | zero =>
      rw [pow_zero, mul_one]
      exact square_mean hS h0 h0' hδ
    | succ i ih =>
      have e : (∫ t in (0 : ℝ)..S, (feed (i + 1) t - feed' (i + 1) t) ^ 2) =
          ∫ t in (0 : ℝ)..S, (Spec.gacOut (x i t) - Spec.gacOut (x' i t)) ^ 2 := by
        refine intervalIntegral.integral_congr fun t ht => ?_
        rw [uIcc_of_le hS.le] at ht
        beta_reduce
        rw [hr.handed i t ht, hr'.handed i t ht]
      rw [e, pow_succ ρ i]
      have h2 := mul_le_mul_of_nonneg_left ih hρ0.le
      calc _ ≤ _ := (hen i).2.2
        _ ≤ _ := h2
        _ = _ := by ring
  have key : ∀ i (u : ColExc r (n + 1)), cdot fo (3 / D.dgI 0) G D.wr u u ≤ D.dg1 * ∫ t in (0 : ℝ)..S, (feed i t - feed' i t) ^ 2 → ‖u‖ ≤ C * σ ^ i * δ := by
    intro i u hu
    have h2 := (hkb u).trans (mul_le_mul_of_nonneg_left (hu.trans (mul_le_mul_of_nonneg_left (hI i) hκ.le)) hk.le)
    refine le_of_sq_le_sq (h2.trans (le_of_eq ?_)) (by positivity)
    rw [mul_pow, mul_pow, hC2, ← pow_mul, mul_comm i 2, pow_mul, hσ2]
    ring
  intro i t ht
  exact ⟨(gacDiff_norm (by positivity)).1 (key i _ ((hen i).1 t ht)), (gacDiff_norm (by positivity)).1 (key i _ ((hen i).2.1 t ht))⟩

/-- C283. So the passes settle: there are courses of a lag and a lead vessel that vessel `i` approaches as `σ ^ i`, at all times of the interval. -/
theorem c283_settles (h : Spec.LinearCarbon D jac leg fo fa) (hS : 0 < S) : ∃ C σ : ℝ, 0 < C ∧ 0 < σ ∧ σ < 1 ∧
    ∀ (δ : ℝ) (raw : ℝ → ℝ) (u0 : GacState 1 r (n + 1)) (feed : ℕ → ℝ → ℝ) (y x : ℕ → ℝ → GacState 1 r (n + 1)),
      Spec.CarbonRelay D fo fa S raw u0 feed y x → ContinuousOn (feed 0) (Icc 0 S) → (∀ t ∈ Icc 0 S, |feed 0 t - feed 1 t| ≤ δ) →
      ∃ Y X : ℝ → GacState 1 r (n + 1), ∀ i, ∀ t ∈ Icc 0 S,
        Spec.GacNear (C * σ ^ i * δ) (y i t) (Y t) ∧ Spec.GacNear (C * σ ^ i * δ) (x i t) (X t) := by
  obtain ⟨C, σ, hC, hσ0, hσ1, hp⟩ := c283_passes (D := D) h hS
  have h1σ : 0 < 1 - σ := sub_pos.2 hσ1
  refine ⟨C / (1 - σ), σ, by positivity, hσ0, hσ1, fun δ raw u0 feed y x hr h0 hδ => ?_⟩
  have hr' : Spec.CarbonRelay D fo fa S raw u0 (fun i => feed (i + 1)) (fun i => y (i + 1)) (fun i => x (i + 1)) :=
    ⟨fun i => hr.vessel (i + 1), fun i => hr.handed (i + 1)⟩
  have hpp := hp δ raw u0 feed (fun i => feed (i + 1)) y x (fun i => y (i + 1)) (fun i => x (i + 1)) hr hr' h0 (relay_continuous hr h0 1) hδ
  have lim : ∀ v : ℕ → ℝ → GacState 1 r (n + 1), (∀ i, ∀ t ∈ Icc 0 S, Spec.GacNear (C * σ ^ i * δ) (v i t) (v (i + 1) t)) →
      ∃ V : ℝ → GacState 1 r (n + 1), ∀ i, ∀ t ∈ Icc 0 S, Spec.GacNear (C / (1 - σ) * σ ^ i * δ) (v i t) (V t) := by
    intro v hv
    have hone : ∀ (t : ℝ) (a : Fin (r + 1 + 1)) (w : Fin (n + 1 + 1)), ∃ l : ℝ, t ∈ Icc 0 S → w ≠ 0 → ∀ i, |v i t 0 a w - l| ≤ C / (1 - σ) * σ ^ i * δ := by
      intro t a w
      by_cases ht : t ∈ Icc 0 S
      swap
      · exact ⟨0, fun e => absurd e ht⟩
      by_cases hw : w = 0
      · exact ⟨0, fun _ e => absurd hw e⟩
      have hd : ∀ i, dist (v i t 0 a w) (v (i + 1) t 0 a w) ≤ C * δ * σ ^ i := fun i => by
        rw [Real.dist_eq]
        refine (hv i t ht a w hw).trans (le_of_eq (by ring))
      obtain ⟨l, hl⟩ := cauchySeq_tendsto_of_complete (cauchySeq_of_le_geometric σ (C * δ) hσ1 hd)
      refine ⟨l, fun _ _ i => ?_⟩
      have := dist_le_of_le_geometric_of_tendsto σ (C * δ) hσ1 hd hl i
      rw [Real.dist_eq] at this
      refine this.trans (le_of_eq (by ring))
    choose l hl using hone
    exact ⟨fun t _ a w => l t a w, fun i t ht a w hw => hl t a w ht hw i⟩
  obtain ⟨Y, hY⟩ := lim y fun i t ht => (hpp i t ht).1
  obtain ⟨X, hX⟩ := lim x fun i t ht => (hpp i t ht).2
  exact ⟨Y, X, fun i t ht => ⟨hY i t ht, hX i t ht⟩⟩

/-- Specification: the column exhausted by `c`. -/
noncomputable def Spec.spentCarbon (xn fo c : ℝ) : GacState 1 r (n + 1) := fun _ a _ => if a = Fin.last (r + 1) then c else Spec.spentLoad xn fo c

theorem spentCarbon_within {xn c : ℝ} : Spec.GacWithin c (Spec.spentLoad xn fo c) 0 (Spec.spentCarbon xn fo c : GacState 1 r (n + 1)) := by
  refine ⟨fun k w => ?_, fun w _ => ?_⟩
  · unfold Spec.spentCarbon
    rw [if_neg (Fin.castSucc_lt_last k).ne, sub_self, abs_zero]
  · unfold Spec.spentCarbon
    rw [if_pos rfl, sub_self, abs_zero]

set_option maxHeartbeats 1000000 in
/-- C283. There are such passes: vessels that start exhausted by a water `c` and get it as lead vessels, the first of them fed with any water near it before
the swap. No bead is ever loaded below zero. -/
theorem c283_relay (h : Spec.LinearCarbon D jac leg fo fa) (hS : 0 < S) {c : ℝ} (hc : 0 < c) : ∃ δ : ℝ, 0 < δ ∧
    ∀ s : ℝ → ℝ, Continuous s → (∀ t ∈ Icc 0 S, |s t - c| ≤ δ) → ∃ (feed : ℕ → ℝ → ℝ) (y x : ℕ → ℝ → GacState 1 r (n + 1)), feed 0 = s ∧
      Spec.CarbonRelay D fo fa S (fun _ => c) (Spec.spentCarbon (D.xn 0) fo c) feed y x := by
  have hsp : Spec.SpentSetting D jac c fo fa :=
    ⟨h.ok, h.beads, by rw [h.axial]; exact .single h.zeros, h.flow, hc, h.fouling, h.tortuosity⟩
  obtain ⟨δ1, C1, ω, hδ1, hC1, hω, hg⟩ := c272_gain hsp
  obtain ⟨G, hG, hP⟩ := passive_legendre h.zeros
  rw [← h.axial] at hG hP
  obtain ⟨ρ, hρ0, hρ1, hρ⟩ := carbon_energy h hG hP hS
  obtain ⟨k, hk, hkb⟩ := lin_norm_le h hG
  have hκ := h.flow
  set q := Spec.spentLoad (D.xn 0) fo c with hq
  have hq0 : 0 < q := spent_pos hc h.fouling _
  have hp : 0 < k * D.dg1 * S := by positivity
  set c0 := Real.sqrt (k * D.dg1 * S) with hc0
  have hc00 : 0 < c0 := Real.sqrt_pos.2 hp
  have hc02 : c0 ^ 2 = k * D.dg1 * S := Real.sq_sqrt hp.le
  set d := min δ1 q / ((1 + c0) * (1 + C1) ^ 2) with hd
  have hm : 0 < min δ1 q := lt_min hδ1 hq0
  have hd0 : 0 < d := by positivity
  have hM : (1 + c0) * (1 + C1) ^ 2 * d = min δ1 q := by rw [hd]; field_simp
  set b := (1 + c0) * d with hb
  have hb0 : 0 < b := by positivity
  have hbM : (1 + 2 * C1 + C1 ^ 2) * b = min δ1 q := by rw [← hM, hb]; ring
  have hCb : 0 < C1 * b := by positivity
  have hCCb : 0 < C1 * (C1 * b) := by positivity
  have hall : b + 2 * (C1 * b) + C1 * (C1 * b) = min δ1 q := by rw [← hbM]; ring
  have hmδ : min δ1 q ≤ δ1 := min_le_left _ _
  have hmq : min δ1 q ≤ q := min_le_right _ _
  set u0 : GacState 1 r (n + 1) := Spec.spentCarbon (D.xn 0) fo c with hu0
  have hrun := fun s : {s : ℝ → ℝ // Continuous s} => c272_run hsp s.2 u0
  choose Y hY0 hY _ using hrun
  have hrun' := fun u : GacState 1 r (n + 1) => c272_run hsp (s := fun _ => c) continuous_const u
  choose X hX0 hX _ using hrun'
  have hclamp : ∀ t : ℝ, max 0 (min t S) ∈ Icc 0 S := fun t => ⟨le_max_left _ _, max_le hS.le (min_le_right _ _)⟩
  have hfix : ∀ t ∈ Icc 0 S, max 0 (min t S) = t := fun t ht => by rw [min_eq_left ht.2, max_eq_right ht.1]
  let next : {s : ℝ → ℝ // Continuous s} → {s : ℝ → ℝ // Continuous s} := fun s =>
    ⟨fun t => Spec.gacOut (X (Y s S) (max 0 (min t S))),
      (gacOut_continuous (hX (Y s S) S)).comp_continuous (by fun_prop) hclamp⟩
  -- runs near exhaustion have no bead below zero
  have hnd : ∀ (v : ℝ → GacState 1 r (n + 1)) (e : ℝ), e ≤ q → (∀ t ∈ Icc 0 S, Spec.GacWithin c q e (v t)) → Spec.NoDebt S v := by
    intro v e he hv t ht k w hw
    have := (abs_le.1 ((hv t ht).1 k w)).1
    linarith
  have hlag : ∀ s : {s : ℝ → ℝ // Continuous s}, ∀ β, 0 ≤ β → β ≤ δ1 → (∀ t ∈ Icc 0 S, |s.1 t - c| ≤ β) →
      ∀ t ∈ Icc 0 S, Spec.GacWithin c q (C1 * β) (Y s t) := by
    intro s β hβ0 hβ hs t ht
    have := hg 0 β S s.1 (Y s) (hY s S) hs (by rw [hY0]; exact spentCarbon_within) hδ1.le hβ t ht
    rwa [mul_zero, zero_add] at this
  have hlead : ∀ (u : GacState 1 r (n + 1)) (e : ℝ), 0 ≤ e → e ≤ δ1 → Spec.GacWithin c q e u → ∀ t ∈ Icc 0 S, Spec.GacWithin c q (C1 * e) (X u t) := by
    intro u e he0 he hu t ht
    have h1 := hg e 0 S (fun _ => c) (X u) (hX u S) (fun t _ => by rw [sub_self, abs_zero]) (by rw [hX0]; exact hu) he hδ1.le t ht
    have h2 : C1 * (Real.exp (-(ω * t)) * e + 0) ≤ C1 * e := by
      have : Real.exp (-(ω * t)) ≤ 1 := Real.exp_le_one_iff.2 (by have := mul_nonneg hω.le ht.1; linarith)
      rw [add_zero]
      exact mul_le_mul_of_nonneg_left (mul_le_of_le_one_left he0 this) hC1.le
    exact ⟨fun k w => (h1.1 k w).trans h2, fun w hw => (h1.2 w hw).trans h2⟩
  have hves : ∀ s : {s : ℝ → ℝ // Continuous s}, (∀ t ∈ Icc 0 S, |s.1 t - c| ≤ b) →
      Spec.CarbonVessel D fo fa S (fun _ => c) s.1 u0 (Y s) (X (Y s S)) := by
    intro s hs
    have h1 := hlag s b hb0.le (by linarith) hs
    have h2 := hlead (Y s S) (C1 * b) hCb.le (by linarith) (h1 S ⟨hS.le, le_rfl⟩)
    exact ⟨hY0 s, hY s S, hX0 _, hX _ S, hnd _ _ (by linarith) h1, hnd _ _ (by linarith) h2⟩
  let s0 : {s : ℝ → ℝ // Continuous s} := ⟨fun _ => c, continuous_const⟩
  have hrest : ∀ t ∈ Icc 0 S, Spec.gacOut (X (Y s0 S) t) = c := by
    intro t ht
    have h1 := hlag s0 0 le_rfl hδ1.le (fun t _ => by show |c - c| ≤ 0; rw [sub_self, abs_zero]) S ⟨hS.le, le_rfl⟩
    rw [mul_zero] at h1
    have h2 := (hlead _ 0 le_rfl hδ1.le h1 t ht).2 (Fin.last (n + 1)) Fin.last_pos.ne'
    rw [mul_zero, abs_nonpos_iff, sub_eq_zero] at h2
    exact h2
  have hv0 := hves s0 (fun t _ => by show |c - c| ≤ b; rw [sub_self, abs_zero]; exact hb0.le)
  have hstep : ∀ s : {s : ℝ → ℝ // Continuous s}, (∀ t ∈ Icc 0 S, |s.1 t - c| ≤ b) → ∫ t in (0 : ℝ)..S, (s.1 t - c) ^ 2 ≤ S * d ^ 2 →
      (∀ t ∈ Icc 0 S, |(next s).1 t - c| ≤ b) ∧ ∫ t in (0 : ℝ)..S, ((next s).1 t - c) ^ 2 ≤ S * d ^ 2 := by
    intro s hs hI
    obtain ⟨-, h2, h3⟩ := hρ _ _ _ _ _ _ _ _ (hves s hs) hv0 s.2.continuousOn s0.2.continuousOn
    have e : (∫ t in (0 : ℝ)..S, ((next s).1 t - c) ^ 2) = ∫ t in (0 : ℝ)..S, (Spec.gacOut (X (Y s S) t) - Spec.gacOut (X (Y s0 S) t)) ^ 2 := by
      refine intervalIntegral.integral_congr fun t ht => ?_
      rw [uIcc_of_le hS.le] at ht
      show (Spec.gacOut (X (Y s S) (max 0 (min t S))) - c) ^ 2 = _
      beta_reduce
      rw [hfix t ht, hrest t ht]
    have hI0 : 0 ≤ ∫ t in (0 : ℝ)..S, (s.1 t - c) ^ 2 := intervalIntegral.integral_nonneg hS.le fun t _ => sq_nonneg _
    refine ⟨fun t ht => ?_, ?_⟩
    · have h4 := (hkb _).trans (mul_le_mul_of_nonneg_left ((h2 t ht).trans (mul_le_mul_of_nonneg_left hI hκ.le)) hk.le)
      have h5 : ‖gacDiff (X (Y s S) t) (X (Y s0 S) t)‖ ≤ c0 * d := by
        refine le_of_sq_le_sq (h4.trans (le_of_eq ?_)) (by positivity)
        rw [mul_pow, hc02]
        ring
      have h6 := (gacDiff_norm (by positivity)).1 h5 (Fin.last (r + 1)) (Fin.last (n + 1)) Fin.last_pos.ne'
      show |Spec.gacOut (X (Y s S) (max 0 (min t S))) - c| ≤ b
      rw [hfix t ht, ← hrest t ht]
      refine le_trans h6 ?_
      rw [hb]
      linarith
    · rw [e]
      refine h3.trans ((mul_le_of_le_one_left hI0 hρ1.le).trans hI)
  refine ⟨d, hd0, fun s hs hsd => ?_⟩
  have hall' : ∀ i, (∀ t ∈ Icc 0 S, |(next^[i] ⟨s, hs⟩).1 t - c| ≤ b) ∧ ∫ t in (0 : ℝ)..S, ((next^[i] ⟨s, hs⟩).1 t - c) ^ 2 ≤ S * d ^ 2 := by
    intro i
    induction i with
    | zero =>
      refine ⟨fun t ht => (hsd t ht).trans ?_, square_mean hS hs.continuousOn continuousOn_const hsd⟩
      rw [hb]
      have : 0 < c0 * d := by positivity
      linarith
    | succ i ih =>
      rw [Function.iterate_succ_apply']
      exact hstep _ ih.1 ih.2
  refine ⟨fun i => (next^[i] ⟨s, hs⟩).1, fun i => Y (next^[i] ⟨s, hs⟩), fun i => X (Y (next^[i] ⟨s, hs⟩) S), rfl,
    fun i => hves _ (hall' i).1, fun i t ht => ?_⟩
  beta_reduce
  rw [Function.iterate_succ_apply']
  show Spec.gacOut (X (Y _ S) (max 0 (min t S))) = _
  rw [hfix t ht]

/-- A column of the code with an exponent of one, any numbers of nodes: two series of passes around 3, the first vessels fed with waters that waver
differently, whose vessels come together and settle. -/
example (r n : ℕ) : ∃ (D : GacDim 1 r (n + 1)) (jac : Fin r → ℝ) (leg : Fin n → ℝ) (δ C σ : ℝ) (y x y' x' : ℕ → ℝ → GacState 1 r (n + 1))
    (feed feed' : ℕ → ℝ → ℝ), Spec.LinearCarbon D jac leg 2 1 ∧ 0 < δ ∧ σ < 1 ∧ feed 0 = (fun t => 3 + δ * Real.sin t) ∧ feed' 0 = (fun t => 3 - δ * Real.sin t) ∧
    Spec.CarbonRelay D 2 1 1 (fun _ => 3) (Spec.spentCarbon 1 2 3) feed y x ∧ Spec.CarbonRelay D 2 1 1 (fun _ => 3) (Spec.spentCarbon 1 2 3) feed' y' x' ∧
    ∀ i, ∀ t ∈ Icc (0 : ℝ) 1, Spec.GacNear (C * σ ^ i * (2 * δ)) (x i t) (x' i t) := by
  obtain ⟨leg, hleg, -⟩ := legendre_exists n
  obtain ⟨jac, B, W, g⟩ := beadGrid_exists r
  let D : GacDim 1 r (n + 1) := gacDim ⟨0.64, 0.8, 0.4, 300, 0.05, 5, 1, 0.01, 1, 10, true⟩
    (fun _ : Fin 1 => ⟨100, 1, 131, 90, 3, 0.003, 1e-6, 1e-9⟩) W B (aMat (axialNodes leg))
  have hp : Spec.OnePhysical ⟨0.64, 0.8, 0.4, 300, 0.05, 5, 1, 0.01, 1, 10, true⟩ ⟨100, 1, 131, 90, 3, 0.003, 1e-6, 1e-9⟩ := by
    refine ⟨?_, ?_, ?_, ?_, ?_, ?_, ?_, ?_, ?_, ?_, ?_⟩ <;>
      norm_num [GacComp.Ok, tortu0, kfUsed, dpUsed, dsUsed]
  have hs : Spec.SpentSetting D jac 3 2 1 := onePhysical_spent hp g (.single hleg) (by norm_num) (by norm_num) (by norm_num)
  have hD : Spec.LinearCarbon D jac leg 2 1 := ⟨hs.ok, hs.beads, hleg, rfl, hs.flow, rfl, hs.fouling, hs.tortuosity⟩
  have hone : D.xn 0 = 1 := rfl
  obtain ⟨δ, hδ, hr⟩ := c283_relay hD (S := 1) one_pos (c := 3) (by norm_num)
  obtain ⟨C, σ, hC, hσ0, hσ1, hpass⟩ := c283_passes hD (S := 1) one_pos
  have hb : ∀ t, |δ * Real.sin t| ≤ δ := fun t => by
    rw [abs_mul, abs_of_pos hδ]
    exact mul_le_of_le_one_right hδ.le (Real.abs_sin_le_one t)
  obtain ⟨feed, y, x, hf, hy⟩ := hr (fun t => 3 + δ * Real.sin t) (by fun_prop) (fun t _ => by rw [add_sub_cancel_left]; exact hb t)
  obtain ⟨feed', y', x', hf', hy'⟩ := hr (fun t => 3 - δ * Real.sin t) (by fun_prop) (fun t _ => by
    rw [sub_sub_cancel_left, abs_neg]; exact hb t)
  rw [hone] at hy hy'
  refine ⟨D, jac, leg, δ, C, σ, y, x, y', x', feed, feed', hD, hδ, hσ1, hf, hf', hy, hy', fun i t ht => ?_⟩
  refine (hpass (2 * δ) _ _ feed feed' y x y' x' hy hy' ?_ ?_ ?_ i t ht).2
  · rw [hf]; exact Continuous.continuousOn (by fun_prop)
  · rw [hf']; exact Continuous.continuousOn (by fun_prop)
  · intro t _
    rw [hf, hf']
    have e : 3 + δ * Real.sin t - (3 - δ * Real.sin t) = 2 * (δ * Real.sin t) := by ring
    rw [e, abs_mul, abs_two]
    have := hb t
    linarith

end
end WTM
