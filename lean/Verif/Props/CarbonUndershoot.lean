import Verif.Props.PacLimit
import Verif.Props.Undershoot

/-! C214: loadings inside clean carbon turn negative right after the start. -/
set_option autoImplicit false
namespace WTM
open BigOperators Set Topology Filter Asymptotics

variable {n m r z nd : ℕ}

/-- A quantity below another that starts with rate zero starts with rate zero. -/
theorem deriv_squeeze {f h : ℝ → ℝ} {s : Set ℝ} (hh : HasDerivWithinAt h 0 s 0) (h0 : h 0 = 0) (hf0 : f 0 = 0)
    (hb : ∀ᶠ t in 𝓝[s] 0, |f t| ≤ |h t|) : HasDerivWithinAt f 0 s 0 := by
  rw [hasDerivWithinAt_iff_isLittleO] at hh ⊢
  simp only [h0, hf0, sub_zero, smul_zero] at hh ⊢
  refine IsBigO.trans_isLittleO (IsBigO.of_bound 1 ?_) hh
  filter_upwards [hb] with t ht
  rw [Real.norm_eq_abs, Real.norm_eq_abs, one_mul]
  exact ht

/-- One point of a bead that starts clean, when what drives diffusion grows at the surface only. -/
theorem clean_point {B : Fin (r + 1) → ℝ} (hB : B (Fin.last r) < 0) {T b : ℝ} (hT : 0 < T) (hb : 0 < b) {x : ℝ → ℝ}
    {ψ : Fin (r + 1) → ℝ → ℝ} (hx0 : x 0 = 0) (hψ0 : ∀ j, ψ j 0 = 0)
    (hψ : ∀ j, HasDerivWithinAt (ψ j) (if j = Fin.last r then b else 0) (Icc 0 T) 0)
    (hin : ∀ t ∈ Icc 0 T, HasDerivWithinAt x (∑ j, B j * ψ j t) (Icc 0 T) t) :
    ∃ δ, 0 < δ ∧ δ ≤ T ∧ ∀ t ∈ Ioo 0 δ, x t < 0 := by
  have hg := HasDerivWithinAt.fun_sum (u := Finset.univ) (fun j _ => (hψ j).const_mul (B j))
  refine neg_of_rate hT hin hx0 hg (by simp [hψ0]) ?_
  simp only [mul_ite, mul_zero, Finset.sum_ite_eq', Finset.mem_univ, if_true]
  exact mul_neg_of_neg_of_pos hB hb

/-! ### Powdered carbon -/

/-- A compound whose surface loading grows at rate `a`, inner ones at rate zero. -/
theorem tank_clean {κ qs : ℝ → ℝ} {α β f μ d : ℝ} (h : TankIso κ qs) (hα : 0 ≤ α) (hβ : 0 < β) (hf : 0 < f)
    (hd : HasDerivWithinAt κ d (Ici 0) 0) (hd0 : 0 ≤ d) {B : Fin (r + 1) → Fin (r + 1) → ℝ} {W : Fin (r + 1) → ℝ}
    (hW : 0 < W (Fin.last r)) {k : Fin r} (hB : B k.castSucc (Fin.last r) < 0) {T : ℝ} (hT : 0 < T)
    {y : ℝ → (Fin (r + 1) → ℝ) × ℝ}
    (hy : ∀ t ∈ Icc 0 T, HasDerivWithinAt y (tankRhs κ α β f μ B W (y t)) (Icc 0 T) t)
    (hq : ∀ l, (y 0).1 l = 0) (hc : 0 < (y 0).2) : ∃ δ, 0 < δ ∧ δ ≤ T ∧ ∀ t ∈ Ioo 0 δ, (y t).1 k.castSucc < 0 := by
  have h0T : (0:ℝ) ∈ Icc 0 T := ⟨le_rfl, hT.le⟩
  have hne : ∀ j : Fin r, j.castSucc ≠ Fin.last r := fun j => (Fin.castSucc_lt_last j).ne
  have hκ0 : κ 0 = 0 := h.neg 0 le_rfl
  have hrate := fun l t (ht : t ∈ Icc 0 T) => (tank_parts (hy t ht)).1 l
  have hψz : tankPsi κ α β 0 = 0 := by unfold tankPsi; rw [hκ0]; ring
  set a := f * (y 0).2 / W (Fin.last r) with ha
  have hapos : 0 < a := by positivity
  have hx : ∀ l, HasDerivWithinAt (fun t => (y t).1 l) (if l = Fin.last r then a else 0) (Icc 0 T) 0 := by
    intro l
    refine (hrate l 0 h0T).congr_deriv ?_
    unfold tankRhs
    simp only [hq, hψz, hκ0, mul_zero, Finset.sum_const_zero, sub_zero]
    rfl
  have hψ : ∀ j, HasDerivWithinAt (fun t => tankPsi κ α β ((y t).1 j)) (if j = Fin.last r then (α * d + β) * a else 0) (Icc 0 T) 0 := by
    intro j
    by_cases hj : j = Fin.last r
    · have hxj := hx j
      rw [if_pos hj] at hxj ⊢
      have hev : ∀ᶠ t in 𝓝[Icc 0 T] 0, 0 ≤ (y t).1 j := by
        have h1 := (hasDerivWithinAt_iff_tendsto_slope.1 hxj).eventually (lt_mem_nhds hapos)
        have h2 : ∀ᶠ t in 𝓝[Icc 0 T] 0, t ∈ Icc 0 T \ {0} → 0 < slope (fun t => (y t).1 j) 0 t := by
          rw [eventually_nhdsWithin_iff] at h1 ⊢
          filter_upwards [h1] with t ht _ ht'
          exact ht ht'
        filter_upwards [h2, self_mem_nhdsWithin] with t ht ht'
        rcases eq_or_lt_of_le ht'.1 with h3 | h3
        · rw [← h3, hq]
        · have h4 := ht ⟨ht', h3.ne'⟩
          rw [slope_def_field, hq, sub_zero, sub_zero] at h4
          exact ((div_pos_iff_of_pos_right h3).1 h4).le
      have hmem : Icc 0 T ∩ {t | 0 ≤ (y t).1 j} ∈ 𝓝[Icc 0 T] 0 := inter_mem self_mem_nhdsWithin hev
      have h5 : HasDerivWithinAt (fun t => κ ((y t).1 j)) (d * a) (Icc 0 T ∩ {t | 0 ≤ (y t).1 j}) 0 := by
        have hd' : HasDerivWithinAt κ d (Ici 0) ((fun t => (y t).1 j) 0) := by
          simp only [hq]; exact hd
        exact HasDerivWithinAt.comp (h₂ := κ) (h := fun t => (y t).1 j) 0 hd' (hxj.mono inter_subset_left) (fun t ht => ht.2)
      have h6 := h5.mono_of_mem_nhdsWithin hmem
      unfold tankPsi
      refine ((h6.const_mul α).add (hxj.const_mul β)).congr_deriv ?_
      ring
    · have hxj := hx j
      rw [if_neg hj] at hxj ⊢
      obtain ⟨K, s, hs, hL⟩ := h.lip 0
      have hK : ∀ᶠ t in 𝓝[Icc 0 T] 0, |κ ((y t).1 j)| ≤ |K * (y t).1 j| := by
        have hcont := hxj.continuousWithinAt
        have : ∀ᶠ t in 𝓝[Icc 0 T] 0, (y t).1 j ∈ s := hcont (by simp only [hq]; exact hs)
        filter_upwards [this] with t ht
        have := hL.dist_le_mul _ ht _ (mem_of_mem_nhds hs)
        rw [hκ0, Real.dist_eq, Real.dist_eq, sub_zero, sub_zero] at this
        rw [abs_mul, NNReal.abs_eq]
        exact this
      have h5 : HasDerivWithinAt (fun t => κ ((y t).1 j)) 0 (Icc 0 T) 0 :=
        deriv_squeeze (h := fun t => K * (y t).1 j) (by simpa using hxj.const_mul (K : ℝ)) (by simp [hq])
          (by simp only [hq, hκ0]) hK
      unfold tankPsi
      refine ((h5.const_mul α).add (hxj.const_mul β)).congr_deriv ?_
      ring
  refine clean_point hB hT (b := (α * d + β) * a) (by positivity) (ψ := fun j t => tankPsi κ α β ((y t).1 j))
    (hq _) (fun j => by simp only [hq, hψz]) hψ (fun t ht => ?_)
  refine (hrate k.castSucc t ht).congr_deriv ?_
  unfold tankRhs
  simp only [if_neg (hne k)]

theorem pacK_deriv {p : Pac m} {i : Fin m} (h : Spec.PacPhysical p i) :
    ∃ d, 0 ≤ d ∧ HasDerivWithinAt (pacK p i) d (Ici 0) 0 := by
  have hr : 0 < p.rho := by have := h.density; unfold Pac.rho; positivity
  have hK := h.K
  have hp : 1 ≤ 1 / (p.comp i).xni := (one_le_div h.xni.1).2 h.xni.2
  have h1 : HasDerivAt (fun q : ℝ => q / p.rho / (p.comp i).K) (1 / p.rho / (p.comp i).K) 0 :=
    ((hasDerivAt_id (0:ℝ)).div_const _).div_const _
  have h2 := h1.rpow_const (p := 1 / (p.comp i).xni) (Or.inr hp)
  refine ⟨_, ?_, h2.hasDerivWithinAt.congr (fun q hq => ?_) ?_⟩
  · have : (0:ℝ) ≤ (0 / p.rho / (p.comp i).K) ^ (1 / (p.comp i).xni - 1) := Real.rpow_nonneg (by simp) _
    have hx := h.xni.1
    positivity
  · have hq : (0:ℝ) ≤ q := hq
    unfold pacK
    rw [max_eq_left (by positivity)]
  · unfold pacK
    rw [max_eq_left (by simp)]

/-- C214. With at least three radial points there is one at which the loading of a compound turns negative as soon as clean
powdered carbon meets it. -/
theorem c214_pac (p : Pac m) {jac : Fin nd → ℝ} {B : Fin (nd + 1) → Fin (nd + 1) → ℝ} {W : Fin (nd + 1) → ℝ}
    (g : Spec.BeadGrid jac B W) (hnd : 2 ≤ nd) :
    ∃ k : Fin nd, ∀ (i : Fin m) (T : ℝ) (y : ℝ → PacY nd m), Spec.PacPhysical p i → 0 < T →
      Spec.Solves pacComp (fun _ u => p.rhs B W u) 0 T y → (∀ l, (y 0).1 l i = 0) → 0 < (y 0).2 i →
      ∃ δ, 0 < δ ∧ δ ≤ T ∧ ∀ t ∈ Ioo 0 δ, (y t).1 k.castSucc i < 0 := by
  obtain ⟨k, hkB⟩ := surf_negative hnd g.zeros
  rw [← g.lap] at hkB
  refine ⟨k, fun i T y hp hT hy hq hc => ?_⟩
  obtain ⟨d, hd0, hd⟩ := pacK_deriv hp
  have hk := pac_consts hp
  exact tank_clean (pac_iso hp) hk.1 hk.2.1 hk.2.2.1 hd hd0 (g.wpos _) hkB hT (y := fun t => pacView i (y t)) (μ := pacMu p)
    (fun t ht => by
      have := pacView_deriv (solves_pac.1 hy t ht) i
      rwa [pac_view] at this) hq hc

/-- C214. In particular in every run of the code: there loadings start at zero, and nothing in the model keeps them from
turning negative. -/
theorem c214_pac_start (p : Pac m) (hp : ∀ i, Spec.PacPhysical p i) {jac : Fin nd → ℝ} {B : Fin (nd + 1) → Fin (nd + 1) → ℝ}
    {W : Fin (nd + 1) → ℝ} (g : Spec.BeadGrid jac B W) (hnd : 2 ≤ nd) :
    ∃ y, y 0 = pacInit ∧ Spec.PacRun p B W y ∧ ∃ k : Fin nd, ∀ i, ∃ δ, 0 < δ ∧ ∀ t ∈ Ioo 0 δ, (y t).1 k.castSucc i < 0 := by
  obtain ⟨y, h0, hy, -⟩ := c212_global p hp g pacInit (fun _ => zero_le_one)
  obtain ⟨k, h⟩ := c214_pac p g hnd
  refine ⟨y, h0, hy, k, fun i => ?_⟩
  obtain ⟨δ, h1, -, h2⟩ := h i 1 y (hp i) one_pos (hy 1) (fun l => by rw [h0]; rfl) (by rw [h0]; exact one_pos)
  exact ⟨δ, h1, h2⟩

/-! ### Granular carbon -/

/-- Pore concentrations of little loaded carbon. -/
theorem cpore_small {ym xn : Fin n → ℝ} (hym : ∀ j, 0 < ym j) (hxn : ∀ j, 0 < xn j) (i : Fin n) :
    ∃ C, 0 ≤ C ∧ ∀ foul y : Fin n → ℝ, |cpore ym xn foul y i| ≤ |foul i| * (C * ∑ j, |y j|) ^ (1 / xn i) := by
  have hc : ∀ j, 0 ≤ xn i / ym i / xn j := fun j => (div_pos (div_pos (hxn i) (hym i)) (hxn j)).le
  refine ⟨∑ j, xn i / ym i / xn j * ym j, Finset.sum_nonneg fun j _ => mul_nonneg (hc j) (hym j).le, fun foul y => ?_⟩
  rw [cpore_closed hym hxn, abs_mul]
  refine mul_le_mul_of_nonneg_left ?_ (abs_nonneg _)
  have hnn : ∀ j, 0 ≤ max (ym j * y j) 0 := fun j => le_max_right _ _
  have hS : 0 ≤ ∑ j, max (ym j * y j) 0 := Finset.sum_nonneg fun j _ => hnn j
  have hT : 0 ≤ ∑ j, xn i / ym i / xn j * max (ym j * y j) 0 := Finset.sum_nonneg fun j _ => mul_nonneg (hc j) (hnn j)
  have hshare : max (ym i * y i) 0 / (∑ j, max (ym j * y j) 0) ≤ 1 :=
    div_le_one_of_le₀ (Finset.single_le_sum (f := fun j => max (ym j * y j) 0) (fun j _ => hnn j) (Finset.mem_univ i)) hS
  rw [abs_of_nonneg (mul_nonneg (div_nonneg (hnn i) hS) (Real.rpow_nonneg hT _))]
  refine (mul_le_of_le_one_left (Real.rpow_nonneg hT _) hshare).trans ?_
  refine Real.rpow_le_rpow hT ?_ (one_div_pos.2 (hxn i)).le
  rw [Finset.sum_mul]
  refine Finset.sum_le_sum fun j _ => ?_
  rw [mul_assoc]
  refine mul_le_mul_of_nonneg_left ?_ (hc j)
  refine max_le ?_ (mul_nonneg (hym j).le (Finset.sum_nonneg fun l _ => abs_nonneg _))
  refine mul_le_mul_of_nonneg_left ?_ (hym j).le
  exact (le_abs_self _).trans (Finset.single_le_sum (f := fun l => |y l|) (fun l _ => abs_nonneg _) (Finset.mem_univ j))

/-- Such a concentration starts with rate zero for an exponent under one. -/
theorem cpore_start {ym xn : Fin n → ℝ} (hym : ∀ j, 0 < ym j) (hxn : ∀ j, 0 < xn j) {i : Fin n} (hi : xn i < 1)
    {T : ℝ} {foul : ℝ → Fin n → ℝ} (hf : ContinuousWithinAt (fun t => foul t i) (Icc 0 T) 0) {y : ℝ → Fin n → ℝ} {d : Fin n → ℝ}
    (hy0 : ∀ j, y 0 j = 0) (hy : ∀ j, HasDerivWithinAt (fun t => y t j) (d j) (Icc 0 T) 0) :
    HasDerivWithinAt (fun t => cpore ym xn (foul t) (y t) i) 0 (Icc 0 T) 0 := by
  obtain ⟨C, hC0, hC⟩ := cpore_small hym hxn i
  have hp : 1 < 1 / xn i := (one_lt_div (hxn i)).2 hi
  -- loadings grow at most linearly
  have hbig : ∀ j, ∃ K, 0 ≤ K ∧ ∀ᶠ t in 𝓝[Icc 0 T] 0, |y t j| ≤ K * t := by
    intro j
    obtain ⟨K, hK⟩ := ((hy j).hasFDerivWithinAt.isBigO_sub).bound
    refine ⟨max K 0, le_max_right _ _, ?_⟩
    filter_upwards [hK, self_mem_nhdsWithin] with t ht ht'
    rw [hy0, sub_zero, sub_zero, Real.norm_eq_abs, Real.norm_eq_abs, abs_of_nonneg ht'.1] at ht
    exact ht.trans (mul_le_mul_of_nonneg_right (le_max_left _ _) ht'.1)
  choose K hK0 hK using hbig
  set F := |foul 0 i| + 1 with hF
  have hfev : ∀ᶠ t in 𝓝[Icc 0 T] 0, |foul t i| ≤ F := by
    have := hf.abs.eventually (gt_mem_nhds (show |foul 0 i| < F by rw [hF]; linarith))
    filter_upwards [this] with t ht
    exact ht.le
  set A := C * ∑ j, K j with hA
  have hA0 : 0 ≤ A := mul_nonneg hC0 (Finset.sum_nonneg fun j _ => hK0 j)
  have hpow : HasDerivWithinAt (fun t : ℝ => F * (A * t) ^ (1 / xn i)) 0 (Icc 0 T) 0 := by
    have h1 : HasDerivAt (fun t : ℝ => A * t) A 0 := by simpa using (hasDerivAt_id (0:ℝ)).const_mul A
    have h2 := (h1.rpow_const (p := 1 / xn i) (Or.inr hp.le)).const_mul F
    refine (h2.congr_deriv ?_).hasDerivWithinAt
    rw [mul_zero, Real.zero_rpow (by linarith)]
    ring
  refine deriv_squeeze hpow (by simp only [mul_zero]; rw [Real.zero_rpow (by linarith), mul_zero]) ?_ ?_
  · exact c48_empty (fun j => (hym j).le) (fun j => (hy0 j).le) i
  · filter_upwards [hfev, eventually_all.2 hK, self_mem_nhdsWithin] with t h1 h2 h3
    refine (hC (foul t) (y t)).trans ?_
    have h4 : C * ∑ j, |y t j| ≤ A * t := by
      rw [hA, mul_assoc, Finset.sum_mul]
      exact mul_le_mul_of_nonneg_left (Finset.sum_le_sum fun j _ => h2 j) hC0
    have h5 : 0 ≤ C * ∑ j, |y t j| := mul_nonneg hC0 (Finset.sum_nonneg fun j _ => abs_nonneg _)
    refine le_trans ?_ (le_abs_self _)
    exact mul_le_mul h1 (Real.rpow_le_rpow h5 h4 (by linarith)) (Real.rpow_nonneg h5 _) (by positivity)

/-- C214. In a clean granular carbon column with at least three radial points there is one at which the loading of a compound
that comes with the influent turns negative at the inlet right after the start. -/
theorem c214_gac (D : GacDim n r z) {jac : Fin r → ℝ} (g : Spec.BeadGrid jac D.br D.wr) (hr : 2 ≤ r)
    (hym : ∀ j, 0 < D.ym j) (hxn : ∀ j, 0 < D.xn j) :
    ∃ k : Fin r, ∀ (i : Fin n) (T : ℝ) (cinfl foul fac : ℝ → Fin n → ℝ) (y : ℝ → GacState n r z), D.xn i < 1 → 0 < D.beds i →
      0 < D.stdv i * D.dgI i → 0 < T → ContinuousWithinAt (fun t => foul t i) (Icc 0 T) 0 →
      ContinuousWithinAt (fun t => fac t i) (Icc 0 T) 0 → 0 < cinfl 0 i →
      Spec.Solves gacComp (fun t u => gacRhs D (cinfl t) (foul t) (fac t) u) 0 T y →
      (∀ j (l : Fin (r + 1)), y 0 j l.castSucc 0 = 0) →
      ∃ δ, 0 < δ ∧ δ ≤ T ∧ ∀ t ∈ Ioo 0 δ, y t i k.castSucc.castSucc 0 < 0 := by
  obtain ⟨k, hkB⟩ := surf_negative hr g.zeros
  rw [← g.lap] at hkB
  refine ⟨k, fun i T cinfl foul fac y hi hbeds hst hT hfoul hfac hc hy hq => ?_⟩
  have h0T : (0:ℝ) ∈ Icc 0 T := ⟨le_rfl, hT.le⟩
  have hne : ∀ j : Fin r, j.castSucc ≠ Fin.last r := fun j => (Fin.castSucc_lt_last j).ne
  have hrate : ∀ j (l : Fin (r + 1)), ∀ t ∈ Icc 0 T, HasDerivWithinAt (fun t => y t j l.castSucc 0)
      (gacBead D (cinfl t) (foul t) (fac t) (y t) j l 0) (Icc 0 T) t := by
    intro j l t ht
    have := hy t ht (j, l.castSucc, 0)
    simp only [gacComp] at this
    rwa [gacRhs_bead] at this
  have hcp0 : ∀ fl : Fin n → ℝ, ∀ j l, cporeAt D fl (y 0) j l 0 = 0 := by
    intro fl j l
    unfold cporeAt
    simp only
    rw [c48_empty (fun j => (hym j).le) (fun j => (hq j l).le)]
    simp
  have hbb0 : ∀ fl fa : Fin n → ℝ, ∀ j l, gacBB D fl fa (y 0) j l 0 = 0 := by
    intro fl fa j l
    unfold gacBB
    simp only [hcp0, hq, mul_zero, Finset.sum_const_zero, zero_mul, add_zero]
  set a : Fin n → ℝ := fun j => cinfl 0 j * (D.stdv j * D.dgI j) / D.wr (Fin.last r) with ha
  have hx : ∀ j l, HasDerivWithinAt (fun t => y t j l.castSucc 0) (if l = Fin.last r then a j else 0) (Icc 0 T) 0 := by
    intro j l
    refine (hrate j l 0 h0T).congr_deriv ?_
    unfold gacBead
    simp only [hcp0, hbb0, gacWW, if_true, mul_zero, Finset.sum_const_zero, sub_zero]
    rfl
  have hapos : 0 < a i := div_pos (mul_pos hc hst) (g.wpos _)
  have hcp : ∀ l, HasDerivWithinAt (fun t => cporeAt D (foul t) (y t) i l 0) 0 (Icc 0 T) 0 := by
    intro l
    have h1 := cpore_start hym hxn hi hfoul (y := fun t j => y t j l.castSucc 0) (fun j => hq j l) (fun j => hx j l)
    refine deriv_squeeze h1 ?_ (hcp0 _ _ _) (Eventually.of_forall fun t => ?_)
    · exact c48_empty (fun j => (hym j).le) (fun j => (hq j l).le) i
    · unfold cporeAt
      simp only
      split
      · rw [abs_zero]; exact abs_nonneg _
      · exact le_rfl
  have hψ : ∀ l, HasDerivWithinAt (fun t => D.bedp i * cporeAt D (foul t) (y t) i l 0 * fac t i + D.beds i * y t i l.castSucc 0)
      (if l = Fin.last r then D.beds i * a i else 0) (Icc 0 T) 0 := by
    intro l
    have h1 := deriv_mul_zero ((hcp l).const_mul (D.bedp i)) (by simp only [hcp0, mul_zero]) hfac
    refine (h1.add ((hx i l).const_mul (D.beds i))).congr_deriv ?_
    split <;> ring
  refine clean_point hkB hT (b := D.beds i * a i) (mul_pos hbeds hapos)
    (ψ := fun l t => D.bedp i * cporeAt D (foul t) (y t) i l 0 * fac t i + D.beds i * y t i l.castSucc 0)
    (hq _ _) (fun l => by simp only [hcp0, hq]; ring) hψ (fun t ht => ?_)
  refine (hrate i k.castSucc t ht).congr_deriv ?_
  unfold gacBead
  rw [if_neg (hne k)]
  unfold gacBB
  rw [Finset.sum_mul, ← Finset.sum_add_distrib]
  exact Finset.sum_congr rfl fun l _ => by ring

/-- C214. In particular when the column starts with nothing in it, as every run of the code does; such a run exists. -/
theorem c214_gac_start (D : GacDim n r z) {jac : Fin r → ℝ} (g : Spec.BeadGrid jac D.br D.wr) (hr : 2 ≤ r)
    (hym : ∀ j, 0 < D.ym j) (hxn : ∀ j, 0 < D.xn j ∧ D.xn j < 1) (hbeds : ∀ j, 0 < D.beds j)
    (hst : ∀ j, 0 < D.stdv j * D.dgI j) {cinfl foul fac : ℝ → Fin n → ℝ} {t1 : ℝ} (h01 : 0 < t1)
    (h1 : ContinuousOn cinfl (Icc 0 t1)) (h2 : ContinuousOn foul (Icc 0 t1)) (h3 : ContinuousOn fac (Icc 0 t1)) :
    ∃ t2, 0 < t2 ∧ t2 ≤ t1 ∧ ∃ y : ℝ → GacState n r z, y 0 = 0 ∧
      Spec.Solves gacComp (fun t u => gacRhs D (cinfl t) (foul t) (fac t) u) 0 t2 y ∧
      ∃ k : Fin r, ∀ i, 0 < cinfl 0 i → ∃ δ, 0 < δ ∧ δ ≤ t2 ∧ ∀ t ∈ Ioo 0 δ, y t i k.castSucc.castSucc 0 < 0 := by
  obtain ⟨t2, h4, h5, y, h0, hy⟩ := c211_exists D hym (fun j => ⟨(hxn j).1, (hxn j).2.le⟩) h01 h1 h2 h3 (0 : GacState n r z)
  obtain ⟨k, h⟩ := c214_gac D g hr hym (fun j => (hxn j).1)
  have hsub : Icc 0 t2 ⊆ Icc 0 t1 := Icc_subset_Icc_right h5
  have h0T : (0:ℝ) ∈ Icc 0 t1 := ⟨le_rfl, h01.le⟩
  refine ⟨t2, h4, h5, y, h0, hy, k, fun i hi => h i t2 cinfl foul fac y (hxn i).2 (hbeds i) (hst i) h4 ?_ ?_ hi hy ?_⟩
  · exact (continuousWithinAt_pi.1 (h2 0 h0T) i).mono hsub
  · exact (continuousWithinAt_pi.1 (h3 0 h0T) i).mono hsub
  · intro j l
    rw [h0]; rfl

/-- There is such a contactor with three radial points, and it runs. -/
example : ∃ (jac : Fin 2 → ℝ) (B : Fin 3 → Fin 3 → ℝ) (W : Fin 3 → ℝ) (y : ℝ → PacY 2 1) (k : Fin 2) (δ : ℝ),
    Spec.BeadGrid jac B W ∧ y 0 = pacInit ∧ Spec.PacRun exPac B W y ∧ 0 < δ ∧ ∀ t ∈ Ioo 0 δ, (y t).1 k.castSucc 0 < 0 := by
  obtain ⟨jac, B, W, g⟩ := beadGrid_exists 2
  obtain ⟨y, h0, hy, k, h⟩ := c214_pac_start exPac exPac_physical g le_rfl
  obtain ⟨δ, h1, h2⟩ := h 0
  exact ⟨jac, B, W, y, k, δ, g, h0, hy, h1, h2⟩

/-- And such a column, with two compounds. -/
example : ∃ (D : GacDim 2 2 1) (t2 δ : ℝ) (y : ℝ → GacState 2 2 1) (k : Fin 2), y 0 = 0 ∧
    Spec.Solves gacComp (fun t u => gacRhs D ![1, 1 + t] 1 1 u) 0 t2 y ∧ 0 < δ ∧ δ ≤ t2 ∧
    ∀ t ∈ Ioo 0 δ, y t 0 k.castSucc.castSucc 0 < 0 := by
  obtain ⟨jac, B, W, g⟩ := beadGrid_exists 2
  let D : GacDim 2 2 1 := ⟨![1 / 4, 3 / 4], ![1 / 2, 3 / 4], ![1, 2], ![3, 1], ![1, 1], ![1 / 5, 1 / 7], 13, W, B, ![![-1, 1], ![-1, 1]]⟩
  obtain ⟨t2, -, -, y, h0, hy, k, h⟩ := c214_gac_start D (jac := jac) g le_rfl (by intro j; fin_cases j <;> norm_num [D])
    (by intro j; fin_cases j <;> norm_num [D]) (by intro j; fin_cases j <;> norm_num [D])
    (by intro j; fin_cases j <;> norm_num [D]) (cinfl := fun t => ![1, 1 + t]) (foul := fun _ => 1) (fac := fun _ => 1) (t1 := 1)
    one_pos (by fun_prop) continuousOn_const continuousOn_const
  obtain ⟨δ, h1, h2, h3⟩ := h 0 (by norm_num)
  exact ⟨D, t2, δ, y, k, h0, hy, h1, h2, h3⟩

end WTM
