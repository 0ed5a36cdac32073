import Mathlib.Tactic
import Mathlib.Analysis.Calculus.Deriv.Slope
import Verif.Props.CarbonUndershoot
import Verif.Props.IexUnique

/-! Property C216: which sign the concentrations along the bed, and the effluent, take right after the start. -/
set_option autoImplicit false
namespace WTM
open Polynomial BigOperators Set Filter Topology

/-! ### The inlet column of the collocation matrix -/

/-- The product of the differences from point `i` to the others has one sign change for each later point. -/
theorem nod_sign {M : ℕ} {x : Fin (M + 1) → ℝ} (hx : StrictMono x) (i : Fin (M + 1)) :
    0 < (-1 : ℝ) ^ (M - (i : ℕ)) * (px x i).1 := by
  classical
  rw [px_eq hx.injective]
  unfold nod
  rw [Lagrange.eval_nodal_derivative_eval_node_eq (Finset.mem_univ i), Lagrange.eval_nodal]
  have hsplit : Finset.univ.erase i = Finset.Iio i ∪ Finset.Ioi i := by
    ext j
    simp only [Finset.mem_erase, Finset.mem_univ, and_true, Finset.mem_union, Finset.mem_Iio, Finset.mem_Ioi]
    exact lt_or_lt_iff_ne.symm
  have hdisj : Disjoint (Finset.Iio i) (Finset.Ioi i) := by
    rw [Finset.disjoint_left]
    intro j h1 h2
    exact absurd (Finset.mem_Iio.1 h1) (not_lt.2 (Finset.mem_Ioi.1 h2).le)
  rw [hsplit, Finset.prod_union hdisj]
  have h1 : 0 < ∏ j ∈ Finset.Iio i, (x i - x j) :=
    Finset.prod_pos fun j hj => sub_pos.2 (hx (Finset.mem_Iio.1 hj))
  have h2 : 0 < (-1 : ℝ) ^ (M - (i : ℕ)) * ∏ j ∈ Finset.Ioi i, (x i - x j) := by
    have hcard : (Finset.Ioi i).card = M - (i : ℕ) := by
      rw [Fin.card_Ioi]; omega
    rw [← hcard, ← Finset.prod_const, ← Finset.prod_mul_distrib]
    exact Finset.prod_pos fun j hj => by
      have := hx (Finset.mem_Ioi.1 hj)
      linarith
  nlinarith [mul_pos h1 h2]

/-- The effect of the inlet value on the slope at point `w` alternates along the bed. -/
theorem aMat_inlet_sign {M : ℕ} {x : Fin (M + 1) → ℝ} (hx : StrictMono x) {w : Fin (M + 1)} (hw : w ≠ 0) :
    0 < (-1 : ℝ) ^ (w : ℕ) * aMat x w 0 := by
  have hw' := w.2
  have hw0 : 0 < w := Fin.pos_iff_ne_zero.2 hw
  have h1 := nod_sign hx w
  have h0 := nod_sign hx 0
  have hd : 0 < x w - x 0 := sub_pos.2 (hx hw0)
  unfold aMat
  rw [if_neg hw]
  simp only [Fin.val_zero, Nat.sub_zero] at h0
  have e : (-1 : ℝ) ^ M = (-1) ^ (w : ℕ) * (-1) ^ (M - (w : ℕ)) := by
    rw [← pow_add]; congr 1; omega
  have hq : 0 < (-1 : ℝ) ^ (w : ℕ) * ((px x w).1 / (px x 0).1) := by
    have h3 := div_pos h1 h0
    have hs : (-1 : ℝ) ^ (w : ℕ) * (-1) ^ (w : ℕ) = 1 := by
      rw [← mul_pow]; norm_num
    have hne : (-1 : ℝ) ^ (M - (w : ℕ)) ≠ 0 := by positivity
    have hne2 : (-1 : ℝ) ^ (w : ℕ) ≠ 0 := by positivity
    have hp : (px x 0).1 ≠ 0 := fun h => by rw [h, mul_zero] at h0; exact lt_irrefl _ h0
    rw [e] at h3
    have e2 : (-1 : ℝ) ^ (M - (w : ℕ)) * (px x w).1 / ((-1) ^ (w : ℕ) * (-1) ^ (M - (w : ℕ)) * (px x 0).1) =
        (-1 : ℝ) ^ (w : ℕ) * ((px x w).1 / (px x 0).1) := by
      rw [div_eq_iff (by positivity)]
      field_simp
      linear_combination -((px x w).1) * hs
    rwa [e2] at h3
  have := mul_pos (one_div_pos.2 hd) hq
  calc 0 < _ := this
    _ = _ := by ring

/-- The axial points are ordered along the bed. -/
theorem axialNodes_strictMono {m : ℕ} {leg : Fin m → ℝ} (h : StrictMono leg) (h1 : ∀ i, 0 < leg i ∧ leg i < 1) :
    StrictMono (axialNodes leg) := by
  refine Fin.strictMono_iff_lt_succ.2 fun k => ?_
  induction k using Fin.cases with
  | zero =>
    have e0 : axialNodes leg (0 : Fin (m + 1)).castSucc = 0 := rfl
    rw [e0]
    rcases Nat.eq_zero_or_pos m with rfl | hm
    · have : (0 : Fin (0 + 1)).succ = Fin.last (0 + 1) := rfl
      rw [this, axialNodes_last]; exact one_pos
    · have : (0 : Fin (m + 1)).succ = (⟨0, hm⟩ : Fin m).castSucc.succ := rfl
      rw [this, axialNodes_int]; exact (h1 _).1
  | succ k =>
    have e1 : (k.succ : Fin (m + 1)).castSucc = k.castSucc.succ := rfl
    rw [e1, axialNodes_int]
    rcases Nat.lt_or_ge (k + 1) m with hk | hk
    · have : (k.succ : Fin (m + 1)).succ = (⟨k + 1, hk⟩ : Fin m).castSucc.succ := rfl
      rw [this, axialNodes_int]
      exact h (Fin.lt_def.2 (Nat.lt_succ_self _))
    · have : (k.succ : Fin (m + 1)).succ = Fin.last (m + 1) := Fin.ext (by simp; omega)
      rw [this, axialNodes_last]
      exact (h1 _).2

/-- The inlet column on the code's axial points. -/
theorem az_inlet_sign {m : ℕ} {leg : Fin m → ℝ} (h : StrictMono leg) (h1 : ∀ i, 0 < leg i ∧ leg i < 1) {w : Fin (m + 2)}
    (hw : w ≠ 0) : 0 < (-1 : ℝ) ^ (w : ℕ) * aMat (axialNodes leg) w 0 :=
  aMat_inlet_sign (axialNodes_strictMono h h1) hw

/-- A quantity that starts at zero takes the sign of its rate. -/
theorem sign_of_rate {v : ℝ → ℝ} {T c s : ℝ} (hT : 0 < T) (hv : HasDerivWithinAt v c (Icc 0 T) 0) (hv0 : v 0 = 0)
    (hc : 0 < s * c) : ∃ δ, 0 < δ ∧ δ ≤ T ∧ ∀ t ∈ Ioo 0 δ, 0 < s * v t := by
  have h1 := hasDerivWithinAt_iff_tendsto_slope.1 (hv.const_mul s)
  have h2 := h1.eventually (lt_mem_nhds hc)
  obtain ⟨ε, hε, hball⟩ := Metric.mem_nhdsWithin_iff.1 h2
  refine ⟨min ε T, lt_min hε hT, min_le_right _ _, fun t ht => ?_⟩
  have ht1 : t < ε := ht.2.trans_le (min_le_left _ _)
  have ht2 : t < T := ht.2.trans_le (min_le_right _ _)
  have := hball (show t ∈ Metric.ball 0 ε ∩ (Icc 0 T \ {0}) from
    ⟨by rw [Metric.mem_ball, Real.dist_eq, sub_zero, abs_of_pos ht.1]; exact ht1, ⟨ht.1.le, ht2.le⟩, ht.1.ne'⟩)
  simp only [Set.mem_ofPred_eq, slope_def_field, hv0, mul_zero, sub_zero] at this
  by_contra hle
  exact absurd this (not_lt.2 (div_nonpos_of_nonpos_of_nonneg (not_lt.1 hle) ht.1.le))

/-! ### C216 -/

section
variable {n r m : ℕ} {leg : Fin m → ℝ}

/-- C216. A carbon column that starts empty: right after the start the concentration at axial point `w` has the sign
`(-1)^(w+1)`, for every compound that comes with the influent. -/
theorem c216_gac (D : GacDim n r (m + 1)) (hleg : StrictMono leg) (h01 : ∀ i, 0 < leg i ∧ leg i < 1)
    (haz : D.az = aMat (axialNodes leg)) (hym : ∀ j, 0 < D.ym j) (hdg : 0 < D.dg1) {cinfl foul fac : ℝ → Fin n → ℝ} {T : ℝ}
    (hT : 0 < T) {y : ℝ → GacState n r (m + 1)} (h0 : y 0 = 0)
    (hy : Spec.Solves gacComp (fun t u => gacRhs D (cinfl t) (foul t) (fac t) u) 0 T y) {i : Fin n} (hc : 0 < cinfl 0 i)
    {w : Fin (m + 2)} (hw : w ≠ 0) :
    ∃ δ, 0 < δ ∧ δ ≤ T ∧ ∀ t ∈ Ioo 0 δ, 0 < (-1 : ℝ) ^ ((w : ℕ) + 1) * y t i (Fin.last (r + 1)) w := by
  have h0T : (0:ℝ) ∈ Icc 0 T := ⟨le_rfl, hT.le⟩
  have h1 := hy 0 h0T (i, Fin.last (r + 1), w)
  simp only [gacComp] at h1
  rw [gacRhs_liq] at h1
  have hcp : cporeAt D (foul 0) (y 0) i (Fin.last r) w = 0 := by
    unfold cporeAt
    simp only
    rw [c48_empty (fun j => (hym j).le) (fun j => by rw [h0]; exact le_rfl)]
    simp
  have hr : gacLiq D (cinfl 0) (foul 0) (y 0) i w = -D.dg1 * (D.az w 0 * cinfl 0 i) := by
    unfold gacLiq gacCbs
    rw [if_neg hw, if_neg hw, hcp, h0]
    simp
  rw [hr] at h1
  refine sign_of_rate hT h1 (by rw [h0]; rfl) ?_
  have h2 := az_inlet_sign hleg h01 hw
  rw [← haz] at h2
  have := mul_pos (mul_pos hdg hc) h2
  calc 0 < _ := this
    _ = _ := by rw [pow_succ]; ring

/-- C216. With an odd number of interior points (the default nz = 19 has 17) the effluent of a carbon column turns negative
first; the code shows zero instead. -/
theorem c216_gac_odd (D : GacDim n r (m + 1)) (hleg : StrictMono leg) (h01 : ∀ i, 0 < leg i ∧ leg i < 1)
    (haz : D.az = aMat (axialNodes leg)) (hym : ∀ j, 0 < D.ym j) (hdg : 0 < D.dg1) {cinfl foul fac : ℝ → Fin n → ℝ} {T : ℝ}
    (hT : 0 < T) {y : ℝ → GacState n r (m + 1)} (h0 : y 0 = 0)
    (hy : Spec.Solves gacComp (fun t u => gacRhs D (cinfl t) (foul t) (fac t) u) 0 T y) {i : Fin n} (hc : 0 < cinfl 0 i)
    (hm : Odd m) : ∃ δ, 0 < δ ∧ δ ≤ T ∧ ∀ t ∈ Ioo 0 δ, y t i (Fin.last (r + 1)) (Fin.last (m + 1)) < 0 := by
  obtain ⟨δ, h1, h2, h3⟩ := c216_gac D hleg h01 haz hym hdg hT h0 hy hc (w := Fin.last (m + 1)) (Fin.last_pos.ne')
  refine ⟨δ, h1, h2, fun t ht => ?_⟩
  have := h3 t ht
  have e : (-1 : ℝ) ^ (((Fin.last (m + 1) : Fin (m + 2)) : ℕ) + 1) = -1 := by
    rw [Fin.val_last]
    exact Odd.neg_one_pow (by obtain ⟨k, rfl⟩ := hm; exact ⟨k + 1, by ring⟩)
  rw [e] at this
  linarith

/-- C216. With an even number of interior points the effluent contains the compound at once, long before the first influent
could have reached the outlet. -/
theorem c216_gac_even (D : GacDim n r (m + 1)) (hleg : StrictMono leg) (h01 : ∀ i, 0 < leg i ∧ leg i < 1)
    (haz : D.az = aMat (axialNodes leg)) (hym : ∀ j, 0 < D.ym j) (hdg : 0 < D.dg1) {cinfl foul fac : ℝ → Fin n → ℝ} {T : ℝ}
    (hT : 0 < T) {y : ℝ → GacState n r (m + 1)} (h0 : y 0 = 0)
    (hy : Spec.Solves gacComp (fun t u => gacRhs D (cinfl t) (foul t) (fac t) u) 0 T y) {i : Fin n} (hc : 0 < cinfl 0 i)
    (hm : Even m) : ∃ δ, 0 < δ ∧ δ ≤ T ∧ ∀ t ∈ Ioo 0 δ, 0 < y t i (Fin.last (r + 1)) (Fin.last (m + 1)) := by
  obtain ⟨δ, h1, h2, h3⟩ := c216_gac D hleg h01 haz hym hdg hT h0 hy hc (w := Fin.last (m + 1)) (Fin.last_pos.ne')
  refine ⟨δ, h1, h2, fun t ht => ?_⟩
  have := h3 t ht
  have e : (-1 : ℝ) ^ (((Fin.last (m + 1) : Fin (m + 2)) : ℕ) + 1) = 1 := by
    rw [Fin.val_last]
    exact Even.neg_one_pow (by obtain ⟨k, rfl⟩ := hm; exact ⟨k + 1, by ring⟩)
  rw [e] at this
  linarith

end

section
variable {r p m : ℕ} {leg : Fin m → ℝ}

/-- C216. An ion exchange column as the code starts it: right after the start the concentration at axial point `w` of every ion
of the influent other than the presaturant has the sign `(-1)^(w+1)`. -/
theorem c216_iex (M : ColModel) (P : ColParams r p (m + 1)) (hleg : StrictMono leg) (h01 : ∀ i, 0 < leg i ∧ leg i < 1)
    (haz : P.Az = aMat (axialNodes leg)) {tH : ℝ} (htH : 0 < tH) (hv : 0 < P.v) (hL : 0 < P.L) (hE : 0 < P.EBED)
    {cin : ℝ → Fin (p + 1) → ℝ} {T : ℝ} (hT : 0 < T) {y : ℝ → ColState r p (m + 1)}
    (h0 : y 0 = colInit P.Q (cin 0) none) (hy : Spec.Solves colComp (fun t u => M.rhs P tH (cin t) u) 0 T y)
    {i : Fin (p + 1)} (hi : i ≠ 0) (hc : 0 < cin 0 i) {w : Fin (m + 2)} (hw : w ≠ 0) :
    ∃ δ, 0 < δ ∧ δ ≤ T ∧ ∀ t ∈ Ioo 0 δ, 0 < (-1 : ℝ) ^ ((w : ℕ) + 1) * y t 0 i w := by
  have h0T : (0:ℝ) ∈ Icc 0 T := ⟨le_rfl, hT.le⟩
  have h1 := hy 0 h0T (0, i, w)
  simp only [colComp] at h1
  rw [rhs_eq, assemble_liq, if_neg hw] at h1
  have hC : ∀ w' : Fin (m + 2), setInlet (y 0) (cin 0) 0 i w' = if w' = 0 then cin 0 i else 0 := by
    intro w'
    rw [h0]
    by_cases h : w' = 0
    · simp [setInlet, h]
    · simp [setInlet, h, colInit, hi]
  have hJ : M.flux P (setInlet (y 0) (cin 0)) i w = 0 := by
    have hq : setInlet (y 0) (cin 0) (Fin.last (r + 1)) i w = 0 := by
      rw [← Fin.succ_last, setInlet_bead, h0]
      simp [colInit, hi]
    have hl : M.load P (setInlet (y 0) (cin 0) (Fin.last (r + 1)) i w) = 0 := by
      rw [hq]; cases M <;> simp [ColModel.load]
    unfold ColModel.flux fluxJ implicitRef
    rw [if_neg hi]
    beta_reduce
    rw [ceq_ratio hi, hl, hC, if_neg hw]
    ring
  have hr : liqRate P tH (setInlet (y 0) (cin 0) 0) (M.flux P (setInlet (y 0) (cin 0))) i w =
      -(P.v / P.L / P.EBED * tH) * (P.Az w 0 * cin 0 i) := by
    unfold liqRate
    rw [hJ]
    simp only [hC, mul_ite, mul_zero, Finset.sum_ite_eq', Finset.mem_univ, if_true]
    ring
  rw [hr] at h1
  refine sign_of_rate hT h1 ?_ ?_
  · rw [h0]
    simp [colInit, hw, hi]
  have h2 := az_inlet_sign hleg h01 hw
  rw [← haz] at h2
  have hp : 0 < P.v / P.L / P.EBED * tH := mul_pos (div_pos (div_pos hv hL) hE) htH
  have := mul_pos (mul_pos hp hc) h2
  calc 0 < _ := this
    _ = _ := by rw [pow_succ]; ring

/-- C216. With an odd number of interior points (the default nz = 13 has 11) the effluent turns negative first. -/
theorem c216_iex_odd (M : ColModel) (P : ColParams r p (m + 1)) (hleg : StrictMono leg) (h01 : ∀ i, 0 < leg i ∧ leg i < 1)
    (haz : P.Az = aMat (axialNodes leg)) {tH : ℝ} (htH : 0 < tH) (hv : 0 < P.v) (hL : 0 < P.L) (hE : 0 < P.EBED)
    {cin : ℝ → Fin (p + 1) → ℝ} {T : ℝ} (hT : 0 < T) {y : ℝ → ColState r p (m + 1)}
    (h0 : y 0 = colInit P.Q (cin 0) none) (hy : Spec.Solves colComp (fun t u => M.rhs P tH (cin t) u) 0 T y)
    {i : Fin (p + 1)} (hi : i ≠ 0) (hc : 0 < cin 0 i) (hm : Odd m) :
    ∃ δ, 0 < δ ∧ δ ≤ T ∧ ∀ t ∈ Ioo 0 δ, y t 0 i (Fin.last (m + 1)) < 0 := by
  obtain ⟨δ, h1, h2, h3⟩ := c216_iex M P hleg h01 haz htH hv hL hE hT h0 hy hi hc (w := Fin.last (m + 1)) (Fin.last_pos.ne')
  refine ⟨δ, h1, h2, fun t ht => ?_⟩
  have := h3 t ht
  have e : (-1 : ℝ) ^ (((Fin.last (m + 1) : Fin (m + 2)) : ℕ) + 1) = -1 := by
    rw [Fin.val_last]
    exact Odd.neg_one_pow (by obtain ⟨k, rfl⟩ := hm; exact ⟨k + 1, by ring⟩)
  rw [e] at this
  linarith

end

/-- A carbon column with three interior points and two compounds; it runs, and its effluent goes below zero. -/
example : ∃ (leg : Fin 3 → ℝ) (D : GacDim 2 1 4) (t2 δ : ℝ) (y : ℝ → GacState 2 1 4), Spec.ShJacobiRoots 3 1 1 leg ∧
    D.az = aMat (axialNodes leg) ∧ y 0 = 0 ∧
    Spec.Solves gacComp (fun t u => gacRhs D ![1, 1 + t] 1 1 u) 0 t2 y ∧ 0 < δ ∧ δ ≤ t2 ∧
    ∀ t ∈ Ioo 0 δ, y t 0 (Fin.last 2) (Fin.last 4) < 0 := by
  obtain ⟨jac, B, W, g⟩ := beadGrid_exists 1
  obtain ⟨leg, hl, hmono⟩ := legendre_exists 3
  let D : GacDim 2 1 4 := ⟨![1 / 4, 3 / 4], ![1 / 2, 3 / 4], ![1, 2], ![3, 1], ![1, 1], ![1 / 5, 1 / 7], 13, W, B,
    aMat (axialNodes leg)⟩
  have hym : ∀ j, 0 < D.ym j := by intro j; fin_cases j <;> norm_num [D]
  obtain ⟨t2, h4, h5, y, h0, hy⟩ := c211_exists D hym (by intro j; fin_cases j <;> norm_num [D])
    (cinfl := fun t => ![1, 1 + t]) (foul := fun _ => 1) (fac := fun _ => 1) (t0 := 0) (t1 := 1) one_pos
    (by fun_prop) continuousOn_const continuousOn_const 0
  obtain ⟨δ, h1, h2, h3⟩ := c216_gac_odd D hmono (hl.2.1) rfl hym (by norm_num [D]) h4 h0 hy (i := 0) (by norm_num)
    (by decide)
  exact ⟨leg, D, t2, δ, y, hl, rfl, h0, hy, h1, h2, h3⟩

/-- And such an ion exchange column, of either model. -/
example (M : ColModel) : ∃ (leg : Fin 3 → ℝ) (P : ColParams 1 1 4) (T δ : ℝ) (y : ℝ → ColState 1 1 4),
    Spec.ShJacobiRoots 3 1 1 leg ∧ P.Az = aMat (axialNodes leg) ∧ y 0 = colInit P.Q ![1, 1] none ∧
    Spec.Solves colComp (fun _ u => M.rhs P 7 ![1, 1] u) 0 T y ∧ 0 < δ ∧ δ ≤ T ∧
    ∀ t ∈ Ioo 0 δ, y t 0 1 (Fin.last 4) < 0 := by
  obtain ⟨jac, B, W, g⟩ := beadGrid_exists 1
  obtain ⟨leg, hl, hmono⟩ := legendre_exists 3
  let P : ColParams 1 1 4 :=
    ⟨1 / 2, 1, 1, 1, 2, 1 / 4, ![1, 1], ![1, 1], ![2, 2], ![1, 3], ![1, 2], aMat (axialNodes leg), B, W⟩
  have hK : ∀ i, 0 < P.K i := by intro i; fin_cases i <;> simp [P]
  have hs : (0:ℝ) ≤ ∑ j, (![1, 1] : Fin 2 → ℝ) j := by rw [Fin.sum_univ_two]; norm_num
  obtain ⟨T, hT, -, y, hy0, hy⟩ := c209_start M P hK rfl rfl (by norm_num [P]) (by norm_num [P]) 7
    (cin := fun _ => ![1, 1]) (t1 := 5) (by norm_num) continuousOn_const hs
  obtain ⟨δ, h1, h2, h3⟩ := c216_iex_odd M P hmono hl.2.1 rfl (tH := 7) (by norm_num) (by norm_num [P]) (by norm_num [P])
    (by norm_num [P]) hT hy0 hy (i := 1) (by decide) (by norm_num) (by decide)
  exact ⟨leg, P, T, δ, y, hl, rfl, hy0, hy, h1, h2, h3⟩

end WTM
