import Verif.Props.GacFactor
import Verif.Props.GacRun

/-! Property C287: what the rates of a carbon column tell about the diffusivities. -/
set_option autoImplicit false
namespace WTM
open BigOperators Set

section
variable {n r z : ℕ}

/-- Specification: a compound with other supplied diffusivities. -/
def Spec.withD (c : GacComp) (dp ds : ℝ) : GacComp := { c with mtDp := dp, mtDs := ds }

/-- Specification: surface diffusion weighted by what the surfaces hold, and pore diffusion by what the pores hold. -/
noncomputable def Spec.effective (G : GacCol) (c : GacComp) (tort dp ds : ℝ) : ℝ :=
  (if G.organicFree then ds else ds / 1e10) * dgsOf G c + dp * dgpOf G * (tortu0 G / tort)

/-- Specification: supplied diffusivities that differ, the surface diffusivity not below the limit of PSDM.py:1454. -/
structure Spec.Supplied (G : GacCol) (c : GacComp) (dp ds : ℝ) : Prop where
  pore : 0 < dp
  surface : 0 < ds
  differ : (if G.organicFree then ds else ds / 1e10) ≠ dp
  limit : 1e-130 ≤ (if G.organicFree then ds else ds / 1e10) * dgsOf G c * G.tau / G.rad ^ 2

/-- Specification: no bead holds less than nothing. -/
def Spec.BeadsFilled (y : GacState n r z) : Prop := ∀ i (k : Fin (r + 1)) w, 0 ≤ y i k.castSucc w

theorem dgs_pos' {G : GacCol} {c : GacComp} (hebed : 0 < G.ebed ∧ G.ebed < 1) (hrhop : 0 < G.rhop) (hc : c.Ok) : 0 < dgsOf G c := by
  have h1 := qe_pos hc
  have h2 := cb0_pos hc
  have h3 : 0 < 1 - G.ebed := by linarith [hebed.2]
  have h4 := hebed.1
  unfold dgsOf
  positivity

theorem dg_pos' {G : GacCol} {c : GacComp} (hebed : 0 < G.ebed ∧ G.ebed < 1) (hepor : 0 < G.epor) (hrhop : 0 < G.rhop) (hc : c.Ok) : 0 < dgOf G c :=
  add_pos (dgs_pos' hebed hrhop hc) (div_pos (mul_pos hepor (by linarith [hebed.2])) hebed.1)

theorem withD_ds {G : GacCol} {c : GacComp} {dp ds : ℝ} (h : Spec.Supplied G c dp ds) :
    dsUsed G (Spec.withD c dp ds) = if G.organicFree then ds else ds / 1e10 := by
  unfold dsUsed Spec.withD
  dsimp only
  rw [if_pos h.surface]

theorem withD_dp {G : GacCol} {c : GacComp} {dp ds : ℝ} (h : Spec.Supplied G c dp ds) : dpUsed G (Spec.withD c dp ds) = dp := if_pos h.pore

/-- The two coefficients of the beads. -/
theorem withD_coef {G : GacCol} {cs : Fin n → GacComp} {dp ds : Fin n → ℝ} (tort : ℝ) {i : Fin n} (h : Spec.Supplied G (cs i) (dp i) (ds i)) :
    bedpOf G (fun i => Spec.withD (cs i) (dp i) (ds i)) i * facAOf tort (dRatio G (Spec.withD (cs i) (dp i) (ds i))) =
      (dp i / tort - if G.organicFree then ds i else ds i / 1e10) * (tortu0 G * dgpOf G * G.tau / G.rad ^ 2 * (dgtOf G cs / dgOf G (cs i))) ∧
    bedsOf G (fun i => Spec.withD (cs i) (dp i) (ds i)) i =
      (if G.organicFree then ds i else ds i / 1e10) * ((dgsOf G (cs i) + tortu0 G * dgpOf G) * G.tau / G.rad ^ 2 * (dgtOf G cs / dgOf G (cs i))) := by
  have hr : dRatio G (Spec.withD (cs i) (dp i) (ds i)) = (if G.organicFree then ds i else ds i / 1e10) / dp i := by
    unfold dRatio
    rw [withD_ds h, withD_dp h]
  have hp := h.pore.ne'
  have hne : dRatio G (Spec.withD (cs i) (dp i) (ds i)) ≠ 1 := by
    rw [hr]
    exact fun e => h.differ ((div_eq_one_iff_eq hp).1 e)
  have ep : edpOf G (Spec.withD (cs i) (dp i) (ds i)) = dp i * tortu0 G * dgpOf G * G.tau / G.rad ^ 2 := by
    unfold edpOf
    rw [withD_dp h]
  have es : edsOf G (Spec.withD (cs i) (dp i) (ds i)) = (if G.organicFree then ds i else ds i / 1e10) * dgsOf G (cs i) * G.tau / G.rad ^ 2 := by
    unfold edsOf
    dsimp only
    rw [withD_ds h]
    exact if_neg (not_lt.2 h.limit)
  have et : dgtOf G (fun i => Spec.withD (cs i) (dp i) (ds i)) = dgtOf G cs := rfl
  have eg : dgOf G (Spec.withD (cs i) (dp i) (ds i)) = dgOf G (cs i) := rfl
  constructor
  · rw [c285_coefficient (cs := fun i => Spec.withD (cs i) (dp i) (ds i)) hne]
    beta_reduce
    rw [ep, hr, et, eg]
    field_simp
  · unfold bedsOf
    beta_reduce
    rw [es, ep, hr, et, eg]
    field_simp

/-- With exponents of one every compound has its own linear isotherm. -/
theorem cpore_straight {ym xn foul y : Fin n → ℝ} (hym : ∀ j, 0 < ym j) (hxn : ∀ j, xn j = 1) (hy : ∀ j, 0 ≤ y j) (i : Fin n) :
    cpore ym xn foul y i = foul i * y i := by
  rw [cpore_closed hym (fun j => by rw [hxn j]; exact one_pos)]
  have hm : ∀ j, max (ym j * y j) 0 = ym j * y j := fun j => max_eq_left (mul_nonneg (hym j).le (hy j))
  simp only [hm, hxn, div_one, Real.rpow_one]
  rw [← Finset.mul_sum]
  by_cases h0 : ∑ j, ym j * y j = 0
  · have : ym i * y i = 0 := (Finset.sum_eq_zero_iff_of_nonneg fun j _ => mul_nonneg (hym j).le (hy j)).1 h0 i (Finset.mem_univ i)
    have hyi : y i = 0 := (mul_eq_zero.1 this).resolve_left (hym i).ne'
    rw [h0, hyi]
    simp
  · have := (hym i).ne'
    field_simp

theorem cporeAt_straight {D : GacDim n r z} (hym : ∀ j, 0 < D.ym j) (hxn : ∀ j, D.xn j = 1) {foul : Fin n → ℝ} (hf : ∀ j, 0 ≤ foul j) {y : GacState n r z}
    (hy : Spec.BeadsFilled y) (i : Fin n) (k : Fin (r + 1)) (w : Fin (z + 1)) : cporeAt D foul y i k w = foul i * y i k.castSucc w := by
  unfold cporeAt
  dsimp only
  rw [cpore_straight hym hxn (fun j => hy j k w), if_neg]
  exact fun h => absurd h.2 (not_lt.2 (mul_nonneg (hf i) (hy i k w)))

theorem gacBB_straight {D : GacDim n r z} (hym : ∀ j, 0 < D.ym j) (hxn : ∀ j, D.xn j = 1) {foul fac : Fin n → ℝ} (hf : ∀ j, 0 ≤ foul j) {y : GacState n r z}
    (hy : Spec.BeadsFilled y) (i : Fin n) (k : Fin (r + 1)) (w : Fin (z + 1)) :
    gacBB D foul fac y i k w = (D.bedp i * fac i * foul i + D.beds i) * ∑ l, D.br k l * y i l.castSucc w := by
  unfold gacBB
  rw [Finset.sum_mul, Finset.mul_sum, ← Finset.sum_add_distrib]
  refine Finset.sum_congr rfl fun l _ => ?_
  rw [cporeAt_straight hym hxn hf hy]
  ring

/-- Rates of two columns that differ only in the coefficients of the beads. -/
theorem gacRhs_beads {D D' : GacDim n r z} (e1 : D'.ym = D.ym) (e2 : D'.xn = D.xn) (e3 : D'.stdv = D.stdv) (e4 : D'.dgI = D.dgI) (e5 : D'.dg1 = D.dg1)
    (e6 : D'.wr = D.wr) (e7 : D'.az = D.az) {cinfl foul fac fac' : Fin n → ℝ} {y : GacState n r z}
    (hB : ∀ i k w, gacBB D' foul fac' y i k w = gacBB D foul fac y i k w) : gacRhs D' cinfl foul fac' y = gacRhs D cinfl foul fac y := by
  have hc : ∀ i k w, cporeAt D' foul y i k w = cporeAt D foul y i k w := by
    intro i k w
    unfold cporeAt
    rw [e1, e2]
  have hs : ∀ i w, gacCbs D' foul y i w = gacCbs D foul y i w := by
    intro i w
    unfold gacCbs
    rw [e3, hc]
  have hw : ∀ i w, gacWW D' foul fac' y i w = gacWW D foul fac y i w := by
    intro i w
    unfold gacWW
    rw [e6]
    exact Finset.sum_congr rfl fun k _ => by rw [hB]
  funext i a w
  unfold gacRhs
  refine Fin.lastCases ?_ (fun k => ?_) a
  · rw [Fin.lastCases_last, Fin.lastCases_last]
    unfold gacLiq
    rw [e5, e7, hs]
  · rw [Fin.lastCases_castSucc, Fin.lastCases_castSucc]
    unfold gacBead
    rw [hc, hs, hw, hw, hB, e3, e4, e6]

/-- Rates of a column with supplied diffusivities at tortuosity `tort`, the capacity as multiplied by `foul`. -/
noncomputable def suppliedRates (G : GacCol) (cs : Fin n → GacComp) (wr : Fin (r + 1) → ℝ) (br : Fin (r + 1) → Fin (r + 1) → ℝ)
    (az : Fin (z + 1) → Fin (z + 1) → ℝ) (tort : ℝ) (dp ds cinfl foul : Fin n → ℝ) (y : GacState n r z) : GacState n r z :=
  gacRhs (gacDim G (fun i => Spec.withD (cs i) (dp i) (ds i)) wr br az) cinfl foul (fun i => facAOf tort (dRatio G (Spec.withD (cs i) (dp i) (ds i)))) y

variable {G : GacCol} {cs : Fin n → GacComp} {wr : Fin (r + 1) → ℝ} {br : Fin (r + 1) → Fin (r + 1) → ℝ} {az : Fin (z + 1) → Fin (z + 1) → ℝ}
  {tort : ℝ} {dp ds dp' ds' : Fin n → ℝ}

theorem effective_sum {i : Fin n} (h : Spec.Supplied G (cs i) (dp i) (ds i)) :
    bedpOf G (fun i => Spec.withD (cs i) (dp i) (ds i)) i * facAOf tort (dRatio G (Spec.withD (cs i) (dp i) (ds i))) * 1 +
      bedsOf G (fun i => Spec.withD (cs i) (dp i) (ds i)) i =
    Spec.effective G (cs i) tort (dp i) (ds i) * (G.tau / G.rad ^ 2 * (dgtOf G cs / dgOf G (cs i))) := by
  rw [(withD_coef tort h).1, (withD_coef tort h).2]
  unfold Spec.effective
  ring

/-- C287. With linear isotherms the rates depend on the diffusivities of each compound only through the effective one. -/
theorem c287_linear (hok : ∀ i, (cs i).Ok) (hxn : ∀ i, (cs i).xn = 1) (h : ∀ i, Spec.Supplied G (cs i) (dp i) (ds i))
    (h' : ∀ i, Spec.Supplied G (cs i) (dp' i) (ds' i)) (he : ∀ i, Spec.effective G (cs i) tort (dp i) (ds i) = Spec.effective G (cs i) tort (dp' i) (ds' i))
    (cinfl : Fin n → ℝ) {y : GacState n r z} (hy : Spec.BeadsFilled y) :
    suppliedRates G cs wr br az tort dp ds cinfl (fun _ => 1) y = suppliedRates G cs wr br az tort dp' ds' cinfl (fun _ => 1) y := by
  unfold suppliedRates
  refine gacRhs_beads (D' := gacDim G (fun i => Spec.withD (cs i) (dp i) (ds i)) wr br az) (D := gacDim G (fun i => Spec.withD (cs i) (dp' i) (ds' i)) wr br az)
    rfl rfl rfl rfl rfl rfl rfl fun i k w => ?_
  rw [gacBB_straight (D := gacDim G (fun i => Spec.withD (cs i) (dp i) (ds i)) wr br az) (ym_pos hok) hxn (fun _ => zero_le_one) hy,
    gacBB_straight (D := gacDim G (fun i => Spec.withD (cs i) (dp' i) (ds' i)) wr br az) (ym_pos hok) hxn (fun _ => zero_le_one) hy]
  refine congrArg (· * ∑ l, br k l * y i l.castSucc w) ?_
  refine (effective_sum (h i)).trans (Eq.trans ?_ (effective_sum (h' i)).symm)
  rw [he i]

/-- C287. So two runs from the same start coincide as long as no bead of the first falls below zero. -/
theorem c287_runs (hok : ∀ i, (cs i).Ok) (hxn : ∀ i, (cs i).xn = 1) (h : ∀ i, Spec.Supplied G (cs i) (dp i) (ds i))
    (h' : ∀ i, Spec.Supplied G (cs i) (dp' i) (ds' i)) (he : ∀ i, Spec.effective G (cs i) tort (dp i) (ds i) = Spec.effective G (cs i) tort (dp' i) (ds' i))
    {cinfl : ℝ → Fin n → ℝ} {t0 t1 : ℝ} (hc : ContinuousOn cinfl (Icc t0 t1)) {y1 y2 : ℝ → GacState n r z}
    (h1 : Spec.Solves gacComp (fun t => suppliedRates G cs wr br az tort dp ds (cinfl t) (fun _ => 1)) t0 t1 y1)
    (h2 : Spec.Solves gacComp (fun t => suppliedRates G cs wr br az tort dp' ds' (cinfl t) (fun _ => 1)) t0 t1 y2)
    (h0 : y1 t0 = y2 t0) (hy : ∀ t ∈ Icc t0 t1, Spec.BeadsFilled (y1 t)) : ∀ t ∈ Icc t0 t1, y1 t = y2 t := by
  have h1' : Spec.Solves gacComp (fun t => suppliedRates G cs wr br az tort dp' ds' (cinfl t) (fun _ => 1)) t0 t1 y1 := by
    intro t ht a
    have := h1 t ht a
    beta_reduce at this
    rw [c287_linear hok hxn h h' he (cinfl t) (hy t ht)] at this
    exact this
  exact c211_unique (gacDim G (fun i => Spec.withD (cs i) (dp' i) (ds' i)) wr br az) (ym_pos hok)
    (fun j => by
      show 0 < (cs j).xn ∧ (cs j).xn ≤ 1
      rw [hxn j]
      exact ⟨one_pos, le_rfl⟩) hc continuousOn_const continuousOn_const h1' h2 h0

/-- Specification: the same where the pore concentrations are multiplied by `f`, as fouling does. -/
noncomputable def Spec.effectiveFouled (G : GacCol) (c : GacComp) (tort f dp ds : ℝ) : ℝ :=
  (if G.organicFree then ds else ds / 1e10) * (dgsOf G c + (1 - f) * (tortu0 G * dgpOf G)) + f * (dp * dgpOf G * (tortu0 G / tort))

theorem effectiveFouled_one (c : GacComp) (x y : ℝ) : Spec.effectiveFouled G c tort 1 x y = Spec.effective G c tort x y := by
  unfold Spec.effectiveFouled Spec.effective
  ring

theorem effectiveFouled_sum {i : Fin n} (h : Spec.Supplied G (cs i) (dp i) (ds i)) (f : ℝ) :
    bedpOf G (fun i => Spec.withD (cs i) (dp i) (ds i)) i * facAOf tort (dRatio G (Spec.withD (cs i) (dp i) (ds i))) * f +
      bedsOf G (fun i => Spec.withD (cs i) (dp i) (ds i)) i =
    Spec.effectiveFouled G (cs i) tort f (dp i) (ds i) * (G.tau / G.rad ^ 2 * (dgtOf G cs / dgOf G (cs i))) := by
  rw [(withD_coef tort h).1, (withD_coef tort h).2]
  unfold Spec.effectiveFouled
  ring

/-- C287 on a fouled carbon: the effective diffusivity at the present fouling decides. -/
theorem c287_fouled (hok : ∀ i, (cs i).Ok) (hxn : ∀ i, (cs i).xn = 1) (h : ∀ i, Spec.Supplied G (cs i) (dp i) (ds i))
    (h' : ∀ i, Spec.Supplied G (cs i) (dp' i) (ds' i)) {foul : Fin n → ℝ} (hf : ∀ i, 0 ≤ foul i)
    (he : ∀ i, Spec.effectiveFouled G (cs i) tort (foul i) (dp i) (ds i) = Spec.effectiveFouled G (cs i) tort (foul i) (dp' i) (ds' i))
    (cinfl : Fin n → ℝ) {y : GacState n r z} (hy : Spec.BeadsFilled y) :
    suppliedRates G cs wr br az tort dp ds cinfl foul y = suppliedRates G cs wr br az tort dp' ds' cinfl foul y := by
  unfold suppliedRates
  refine gacRhs_beads (D' := gacDim G (fun i => Spec.withD (cs i) (dp i) (ds i)) wr br az) (D := gacDim G (fun i => Spec.withD (cs i) (dp' i) (ds' i)) wr br az)
    rfl rfl rfl rfl rfl rfl rfl fun i k w => ?_
  rw [gacBB_straight (D := gacDim G (fun i => Spec.withD (cs i) (dp i) (ds i)) wr br az) (ym_pos hok) hxn hf hy,
    gacBB_straight (D := gacDim G (fun i => Spec.withD (cs i) (dp' i) (ds' i)) wr br az) (ym_pos hok) hxn hf hy]
  refine congrArg (· * ∑ l, br k l * y i l.castSucc w) ?_
  refine (effectiveFouled_sum (h i) _).trans (Eq.trans ?_ (effectiveFouled_sum (h' i) _).symm)
  rw [he i]

/-- C287. Fouling that changes during a run tells the two apart after all: agreement at two foulings means equal diffusivities. -/
theorem c287_fouling_tells {c : GacComp} {x y x' y' f g : ℝ} (hfg : f ≠ g) (hs : 0 < dgsOf G c) (hp : 0 < dgpOf G) (ht0 : 0 < tortu0 G) (ht : 0 < tort)
    (ef : Spec.effectiveFouled G c tort f x y = Spec.effectiveFouled G c tort f x' y')
    (eg : Spec.effectiveFouled G c tort g x y = Spec.effectiveFouled G c tort g x' y') : x = x' ∧ y = y' := by
  unfold Spec.effectiveFouled at ef eg
  set a := (if G.organicFree then y else y / 1e10) with ha
  set a' := (if G.organicFree then y' else y' / 1e10) with ha'
  have hne : f - g ≠ 0 := sub_ne_zero.2 hfg
  have e1 : (f - g) * ((x - x') * (dgpOf G * (tortu0 G / tort)) - (a - a') * (tortu0 G * dgpOf G)) = 0 := by linear_combination ef - eg
  have e2 := (mul_eq_zero.1 e1).resolve_left hne
  have e3 : (a - a') * (dgsOf G c + tortu0 G * dgpOf G) = 0 := by linear_combination ef - f * e2
  have ea : a - a' = 0 := (mul_eq_zero.1 e3).resolve_right (by positivity)
  rw [ea, zero_mul, sub_zero] at e2
  refine ⟨sub_eq_zero.1 ((mul_eq_zero.1 e2).resolve_right (by positivity)), ?_⟩
  have hy := sub_eq_zero.1 ea
  rw [ha, ha'] at hy
  split at hy
  · exact hy
  · exact mul_right_cancel₀ (b := ((1e10:ℝ))⁻¹) (by norm_num) (by simpa only [div_eq_mul_inv] using hy)

/-- The state with `t` of compound `i` in bead point `l` at the inlet and nothing else. -/
noncomputable def spot (i : Fin n) (l : Fin (r + 1)) (t : ℝ) : GacState n r z := fun j a w => if j = i ∧ a = l.castSucc ∧ w = 0 then t else 0

theorem spot_loaded (i : Fin n) (l : Fin (r + 1)) {t : ℝ} (ht : 0 ≤ t) : Spec.BeadsFilled (spot (z := z) i l t) := by
  intro j k w
  unfold spot
  split
  · exact ht
  · exact le_rfl

theorem spot_at (i : Fin n) (l k : Fin (r + 1)) (t : ℝ) : spot (z := z) i l t i k.castSucc 0 = if k = l then t else 0 := by
  unfold spot
  simp only [true_and, and_true, Fin.castSucc_inj]

/-- Equal rates of a bead point below the surface. -/
theorem rates_inner {D D' : GacDim n r z} {cinfl foul fac fac' : Fin n → ℝ} {y : GacState n r z} (he : gacRhs D cinfl foul fac y = gacRhs D' cinfl foul fac' y)
    (i : Fin n) {k : Fin (r + 1)} (hk : k ≠ Fin.last r) (w : Fin (z + 1)) : gacBB D foul fac y i k w = gacBB D' foul fac' y i k w := by
  have := congrFun (congrFun (congrFun he i) k.castSucc) w
  unfold gacRhs at this
  rw [Fin.lastCases_castSucc, Fin.lastCases_castSucc] at this
  unfold gacBead at this
  rwa [if_neg hk, if_neg hk] at this

/-- C287. And they do depend on it: equal rates in all states without negative loadings mean equal effective diffusivities. -/
theorem c287_effective (hok : ∀ i, (cs i).Ok) (hxn : ∀ i, (cs i).xn = 1) (h : ∀ i, Spec.Supplied G (cs i) (dp i) (ds i))
    (h' : ∀ i, Spec.Supplied G (cs i) (dp' i) (ds' i)) (hebed : 0 < G.ebed ∧ G.ebed < 1) (hepor : 0 < G.epor) (hrhop : 0 < G.rhop) (htau : 0 < G.tau)
    (hrad : 0 < G.rad) {k l : Fin (r + 1)} (hk : k ≠ Fin.last r) (hbr : br k l ≠ 0) (cinfl : Fin n → ℝ)
    (he : ∀ y : GacState n r z, Spec.BeadsFilled y →
      suppliedRates G cs wr br az tort dp ds cinfl (fun _ => 1) y = suppliedRates G cs wr br az tort dp' ds' cinfl (fun _ => 1) y) (i : Fin n) :
    Spec.effective G (cs i) tort (dp i) (ds i) = Spec.effective G (cs i) tort (dp' i) (ds' i) := by
  have hy := spot_loaded (z := z) i l zero_le_one
  have hb := rates_inner (he _ hy) i hk 0
  rw [gacBB_straight (D := gacDim G (fun i => Spec.withD (cs i) (dp i) (ds i)) wr br az) (ym_pos hok) hxn (fun _ => zero_le_one) hy,
    gacBB_straight (D := gacDim G (fun i => Spec.withD (cs i) (dp' i) (ds' i)) wr br az) (ym_pos hok) hxn (fun _ => zero_le_one) hy] at hb
  have hs : ∑ l', br k l' * spot (z := z) i l 1 i l'.castSucc 0 = br k l := by
    simp only [spot_at, mul_ite, mul_one, mul_zero]
    rw [Finset.sum_ite_eq' Finset.univ l, if_pos (Finset.mem_univ _)]
  have hc := mul_right_cancel₀ (by rw [show (∑ l', (gacDim G (fun i => Spec.withD (cs i) (dp i) (ds i)) wr br az : GacDim n r z).br k l' *
    spot (z := z) i l 1 i l'.castSucc 0) = br k l from hs]; exact hbr) hb
  have hc' := (effective_sum (tort := tort) (h i)).symm.trans (Eq.trans hc (effective_sum (tort := tort) (h' i)))
  have hg := fun j => dg_pos' hebed hepor hrhop (hok j)
  have hne : (Finset.univ : Finset (Fin n)).Nonempty := ⟨i, Finset.mem_univ i⟩
  have ht : 0 < dgtOf G cs := Finset.sum_pos (fun j _ => hg j) hne
  have := hg i
  exact mul_right_cancel₀ (by positivity) hc'

end

section
variable {r z : ℕ} {G : GacCol} {c : GacComp} {wr : Fin (r + 1) → ℝ} {br : Fin (r + 1) → Fin (r + 1) → ℝ} {az : Fin (z + 1) → Fin (z + 1) → ℝ}
  {tort dp ds dp' ds' : ℝ}

theorem gacBB_spot {D : GacDim 1 r z} (hym : ∀ j, 0 < D.ym j) (hxn : ∀ j, 0 < D.xn j) {fac : Fin 1 → ℝ} {foul : ℝ} (hf : 0 ≤ foul) {t : ℝ} (ht : 0 ≤ t)
    (k l : Fin (r + 1)) : gacBB D (fun _ => foul) fac (spot 0 l t) 0 k 0 = D.br k l * (D.bedp 0 * fac 0 * (foul * t ^ (1 / D.xn 0)) + D.beds 0 * t) := by
  unfold gacBB
  have e1 : ∀ l', D.br k l' * D.bedp 0 * cporeAt D (fun _ => foul) (spot 0 l t) 0 l' 0 =
      if l' = l then D.br k l * D.bedp 0 * (foul * t ^ (1 / D.xn 0)) else 0 := by
    intro l'
    rw [cporeAt_one hym hxn (foul := fun _ => foul) hf, spot_at]
    by_cases hl : l' = l
    · rw [if_pos hl, if_pos hl, hl]
      unfold freund
      rw [max_eq_left ht]
    · rw [if_neg hl, if_neg hl, freund_neg (hxn 0) le_rfl, mul_zero, mul_zero]
  simp only [e1, spot_at, mul_ite, mul_zero]
  rw [Finset.sum_ite_eq' Finset.univ l, if_pos (Finset.mem_univ _), Finset.sum_ite_eq' Finset.univ l, if_pos (Finset.mem_univ _)]
  ring

/-- C287. With another exponent the rates of one compound determine both diffusivities. -/
theorem c287_curved (hok : c.Ok) (hxn : c.xn ≠ 1) (h : Spec.Supplied G c dp ds) (h' : Spec.Supplied G c dp' ds') (hebed : 0 < G.ebed ∧ G.ebed < 1)
    (hepor : 0 < G.epor) (hrhop : 0 < G.rhop) (htau : 0 < G.tau) (hrad : 0 < G.rad) (htort0 : 0 < tortu0 G) (htort : 0 < tort) {foul : ℝ} (hf : 0 < foul)
    {k l : Fin (r + 1)} (hk : k ≠ Fin.last r) (hbr : br k l ≠ 0) (cinfl : Fin 1 → ℝ)
    (he : ∀ y : GacState 1 r z, Spec.BeadsFilled y → suppliedRates G (fun _ => c) wr br az tort (fun _ => dp) (fun _ => ds) cinfl (fun _ => foul) y =
      suppliedRates G (fun _ => c) wr br az tort (fun _ => dp') (fun _ => ds') cinfl (fun _ => foul) y) : dp = dp' ∧ ds = ds' := by
  have hym : ∀ j : Fin 1, 0 < ymOf (fun _ : Fin 1 => c) j := ym_pos fun _ => hok
  have hb : ∀ t : ℝ, 0 ≤ t → _ := fun t ht => rates_inner (he _ (spot_loaded (z := z) 0 l ht)) 0 hk 0
  have key : ∀ t : ℝ, 0 ≤ t →
      bedpOf G (fun _ : Fin 1 => Spec.withD c dp ds) 0 * facAOf tort (dRatio G (Spec.withD c dp ds)) * (foul * t ^ (1 / c.xn)) +
        bedsOf G (fun _ : Fin 1 => Spec.withD c dp ds) 0 * t =
      bedpOf G (fun _ : Fin 1 => Spec.withD c dp' ds') 0 * facAOf tort (dRatio G (Spec.withD c dp' ds')) * (foul * t ^ (1 / c.xn)) +
        bedsOf G (fun _ : Fin 1 => Spec.withD c dp' ds') 0 * t := by
    intro t ht
    have := hb t ht
    rw [gacBB_spot (D := gacDim G (fun _ => Spec.withD c dp ds) wr br az) hym (fun _ => hok.2.1) hf.le ht,
      gacBB_spot (D := gacDim G (fun _ => Spec.withD c dp' ds') wr br az) hym (fun _ => hok.2.1) hf.le ht] at this
    exact mul_left_cancel₀ hbr this
  have k1 := key 1 zero_le_one
  have k2 := key 2 zero_le_two
  rw [Real.one_rpow, mul_one, mul_one] at k1
  have hm : (2:ℝ) ^ (1 / c.xn) ≠ 2 := by
    intro e
    have := (Real.rpow_right_inj (by norm_num : (0:ℝ) < 2) (by norm_num)).1 (e.trans (Real.rpow_one 2).symm)
    exact hxn ((div_eq_one_iff_eq hok.2.1.ne').1 this).symm
  rw [(withD_coef (cs := fun _ : Fin 1 => c) (dp := fun _ => dp) (ds := fun _ => ds) (i := 0) tort h).1,
    (withD_coef (cs := fun _ : Fin 1 => c) (dp := fun _ => dp) (ds := fun _ => ds) (i := 0) tort h).2,
    (withD_coef (cs := fun _ : Fin 1 => c) (dp := fun _ => dp') (ds := fun _ => ds') (i := 0) tort h').1,
    (withD_coef (cs := fun _ : Fin 1 => c) (dp := fun _ => dp') (ds := fun _ => ds') (i := 0) tort h').2] at k1 k2
  have hs := dgs_pos' hebed hrhop hok
  have hp : 0 < dgpOf G := div_pos (mul_pos hepor (by linarith [hebed.2])) hebed.1
  have hg : 0 < dgOf G c := add_pos hs hp
  have ht : 0 < dgtOf G fun _ : Fin 1 => c := Finset.sum_pos (fun _ _ => hg) Finset.univ_nonempty
  set P := tortu0 G * dgpOf G * G.tau / G.rad ^ 2 * (dgtOf G (fun _ : Fin 1 => c) / dgOf G c) with hP
  set S := (dgsOf G c + tortu0 G * dgpOf G) * G.tau / G.rad ^ 2 * (dgtOf G (fun _ : Fin 1 => c) / dgOf G c) with hS
  have hP0 : P ≠ 0 := by positivity
  have hS0 : S ≠ 0 := by positivity
  generalize ha : (if G.organicFree then ds else ds / 1e10) = a at *
  generalize ha' : (if G.organicFree then ds' else ds' / 1e10) = a' at *
  have ea : a = a' := by
    have e : (a - a') * S * (2 - (2:ℝ) ^ (1 / c.xn)) = 0 := by linear_combination k2 - (2:ℝ) ^ (1 / c.xn) * k1
    rcases mul_eq_zero.1 e with e | e
    · exact sub_eq_zero.1 ((mul_eq_zero.1 e).resolve_right hS0)
    · exact absurd (by linarith) hm
  subst ea
  have ed : (dp - dp') * (P * foul / tort) = 0 := by
    linear_combination k1
  refine ⟨sub_eq_zero.1 ((mul_eq_zero.1 ed).resolve_right (by positivity)), ?_⟩
  rw [← ha'] at ha
  split at ha
  · exact ha
  · exact mul_right_cancel₀ (b := ((1e10:ℝ))⁻¹) (by norm_num) (by simpa only [div_eq_mul_inv] using ha)

end
/-- The column of the concrete cases. -/
noncomputable def identifyCol : GacCol := ⟨0.64, 0.8, 0.4, 300, 0.05, 5, 1, 0.01, 1, 10, true⟩

theorem identify_dgs : dgsOf identifyCol ⟨100, 1, 100, 90, 2, 0.003, 0, 0⟩ = 120000 := by
  norm_num [dgsOf, qeOf, molarK, cb0Of, identifyCol, Real.rpow_one]

theorem identify_supplied {dp ds : ℝ} (hp : 0 < dp) (hs : 1e-10 ≤ ds) (hne : ds ≠ dp) : Spec.Supplied identifyCol ⟨100, 1, 100, 90, 2, 0.003, 0, 0⟩ dp ds := by
  have e : (if identifyCol.organicFree = true then ds else ds / 1e10) = ds := if_pos rfl
  refine ⟨hp, lt_of_lt_of_le (by norm_num) hs, by rw [e]; exact hne, ?_⟩
  rw [e, identify_dgs]
  have h : (1e-130 : ℝ) ≤ 1e-10 * 120000 * 300 / 0.05 ^ 2 := by norm_num
  refine h.trans ?_
  show (1e-10 : ℝ) * 120000 * 300 / 0.05 ^ 2 ≤ ds * 120000 * 300 / 0.05 ^ 2
  gcongr

/-- Concrete case: faster pores and slower surfaces, or the other way round, give the same rates. -/
example (cinfl : Fin 1 → ℝ) (wr : Fin 4 → ℝ) (br : Fin 4 → Fin 4 → ℝ) (az : Fin 3 → Fin 3 → ℝ) {y : GacState 1 3 2} (hy : Spec.BeadsFilled y) :
    suppliedRates identifyCol (fun _ => ⟨100, 1, 100, 90, 2, 0.003, 0, 0⟩) wr br az 1 (fun _ => 1e-5) (fun _ => 1e-10) cinfl (fun _ => 1) y =
      suppliedRates identifyCol (fun _ => ⟨100, 1, 100, 90, 2, 0.003, 0, 0⟩) wr br az 1 (fun _ => 2.5e-6) (fun _ => 1.6e-10) cinfl (fun _ => 1) y := by
  refine c287_linear (fun _ => ?_) (fun _ => rfl) (fun _ => identify_supplied ?_ ?_ ?_) (fun _ => identify_supplied ?_ ?_ ?_) (fun _ => ?_) cinfl hy
  · norm_num [GacComp.Ok]
  all_goals first
    | (unfold Spec.effective
       rw [identify_dgs]
       norm_num [identifyCol, dgpOf, tortu0])
    | norm_num

/-- Concrete case: twice the surface diffusivity with the same pore diffusivity shows in some state. -/
example (cinfl : Fin 1 → ℝ) (wr : Fin 4 → ℝ) (az : Fin 3 → Fin 3 → ℝ) : ∃ y : GacState 1 3 2, Spec.BeadsFilled y ∧
    suppliedRates identifyCol (fun _ => ⟨100, 1, 100, 90, 2, 0.003, 0, 0⟩) wr (fun _ _ => 1) az 1 (fun _ => 1e-5) (fun _ => 1e-10) cinfl (fun _ => 1) y ≠
      suppliedRates identifyCol (fun _ => ⟨100, 1, 100, 90, 2, 0.003, 0, 0⟩) wr (fun _ _ => 1) az 1 (fun _ => 1e-5) (fun _ => 2e-10) cinfl (fun _ => 1) y := by
  by_contra H
  push Not at H
  have h := c287_effective (k := 0) (l := 0) (fun _ => by norm_num [GacComp.Ok]) (fun _ => rfl)
    (fun _ => identify_supplied (by norm_num) (by norm_num) (by norm_num)) (fun _ => identify_supplied (by norm_num) (by norm_num) (by norm_num))
    (by norm_num [identifyCol]) (by norm_num [identifyCol]) (by norm_num [identifyCol]) (by norm_num [identifyCol]) (by norm_num [identifyCol])
    (by decide) one_ne_zero cinfl H 0
  unfold Spec.effective at h
  rw [identify_dgs] at h
  norm_num [identifyCol, dgpOf, tortu0] at h

/-- Concrete case: the column ends in the same state with either pair, whatever it is fed. -/
example (wr : Fin 4 → ℝ) (br : Fin 4 → Fin 4 → ℝ) (az : Fin 3 → Fin 3 → ℝ) (cinfl : ℝ → Fin 1 → ℝ) (hc : Continuous cinfl) {y1 y2 : ℝ → GacState 1 3 2}
    (h1 : Spec.Solves gacComp (fun t => suppliedRates identifyCol (fun _ => ⟨100, 1, 100, 90, 2, 0.003, 0, 0⟩) wr br az 1 (fun _ => 1e-5) (fun _ => 1e-10)
      (cinfl t) (fun _ => 1)) 0 10 y1)
    (h2 : Spec.Solves gacComp (fun t => suppliedRates identifyCol (fun _ => ⟨100, 1, 100, 90, 2, 0.003, 0, 0⟩) wr br az 1 (fun _ => 2.5e-6) (fun _ => 1.6e-10)
      (cinfl t) (fun _ => 1)) 0 10 y2)
    (h0 : y1 0 = y2 0) (hy : ∀ t ∈ Icc (0:ℝ) 10, Spec.BeadsFilled (y1 t)) : y1 10 = y2 10 := by
  refine c287_runs (fun _ => ?_) (fun _ => rfl) (fun _ => identify_supplied ?_ ?_ ?_) (fun _ => identify_supplied ?_ ?_ ?_) (fun _ => ?_) hc.continuousOn
    h1 h2 h0 hy 10 ⟨by norm_num, le_rfl⟩
  · norm_num [GacComp.Ok]
  all_goals first
    | (unfold Spec.effective
       rw [identify_dgs]
       norm_num [identifyCol, dgpOf, tortu0])
    | norm_num

/-- Concrete case: the two pairs that agree on fresh carbon differ once fouling has set in. -/
example : Spec.effectiveFouled identifyCol ⟨100, 1, 100, 90, 2, 0.003, 0, 0⟩ 1 2 1e-5 1e-10 ≠
    Spec.effectiveFouled identifyCol ⟨100, 1, 100, 90, 2, 0.003, 0, 0⟩ 1 2 2.5e-6 1.6e-10 := by
  intro e
  have h1 : Spec.effectiveFouled identifyCol ⟨100, 1, 100, 90, 2, 0.003, 0, 0⟩ 1 1 1e-5 1e-10 =
      Spec.effectiveFouled identifyCol ⟨100, 1, 100, 90, 2, 0.003, 0, 0⟩ 1 1 2.5e-6 1.6e-10 := by
    unfold Spec.effectiveFouled
    rw [identify_dgs]
    norm_num [identifyCol, dgpOf, tortu0]
  have := (c287_fouling_tells (by norm_num) (by rw [identify_dgs]; norm_num) (by norm_num [identifyCol, dgpOf]) (by norm_num [identifyCol, tortu0]) one_pos h1 e).1
  norm_num at this

/-- Concrete case: with exponent 1/2 the same two pairs are told apart by some state. -/
example (wr : Fin 4 → ℝ) (az : Fin 3 → Fin 3 → ℝ) : ∃ y : GacState 1 3 2, Spec.BeadsFilled y ∧
    suppliedRates identifyCol (fun _ => ⟨100, 1 / 2, 100, 90, 0, 0.003, 0, 0⟩) wr (fun _ _ => 1) az 1 (fun _ => 1e-5) (fun _ => 1e-10) 0 (fun _ => 1) y ≠
      suppliedRates identifyCol (fun _ => ⟨100, 1 / 2, 100, 90, 0, 0.003, 0, 0⟩) wr (fun _ _ => 1) az 1 (fun _ => 2.5e-6) (fun _ => 1.6e-10) 0 (fun _ => 1) y := by
  by_contra H
  push Not at H
  have hok : (⟨100, 1 / 2, 100, 90, 0, 0.003, 0, 0⟩ : GacComp).Ok := by norm_num [GacComp.Ok]
  have hdg : 1 ≤ dgsOf identifyCol ⟨100, 1 / 2, 100, 90, 0, 0.003, 0, 0⟩ := by
    have hq : 1 ≤ molarK 100 100 (1 / 2) := by
      unfold molarK
      rw [div_self (by norm_num), one_le_div (Real.rpow_pos_of_pos (by norm_num) _)]
      exact Real.rpow_le_one (by norm_num) (by norm_num) (by norm_num)
    unfold dgsOf qeOf cb0Of
    rw [if_pos rfl, Real.one_rpow]
    norm_num [identifyCol] at hq ⊢
    linarith
  have hsup : ∀ {dp ds : ℝ}, 0 < dp → 1e-10 ≤ ds → ds ≠ dp → Spec.Supplied identifyCol ⟨100, 1 / 2, 100, 90, 0, 0.003, 0, 0⟩ dp ds := by
    intro dp ds hp hs hne
    have e : (if identifyCol.organicFree = true then ds else ds / 1e10) = ds := if_pos rfl
    refine ⟨hp, lt_of_lt_of_le (by norm_num) hs, by rw [e]; exact hne, ?_⟩
    rw [e]
    have h : (1e-130 : ℝ) ≤ 1e-10 * 1 * 300 / 0.05 ^ 2 := by norm_num
    refine h.trans ?_
    show (1e-10 : ℝ) * 1 * 300 / 0.05 ^ 2 ≤ ds * _ * 300 / 0.05 ^ 2
    gcongr
  have := (c287_curved (k := 0) (l := 0) (tort := 1) (foul := 1) hok (by norm_num) (hsup (by norm_num) le_rfl (by norm_num))
    (hsup (by norm_num) (by norm_num) (by norm_num)) (by norm_num [identifyCol]) (by norm_num [identifyCol]) (by norm_num [identifyCol])
    (by norm_num [identifyCol]) (by norm_num [identifyCol]) (by norm_num [identifyCol, tortu0]) one_pos one_pos (by decide) one_ne_zero 0 H).1
  norm_num at this

end WTM
