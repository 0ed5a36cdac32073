import Verif.Props.MixCycle
import Verif.Props.IonCycle

/-! Property C277: whatever the isotherm, the selectivities, the fouling and the influent, over long times a column passes on what it is fed:
what leaves and what enters differ by the change of what it holds, so by no more than the bed could hold, and the mean of the effluent is the mean
of the influent. -/
set_option autoImplicit false
namespace WTM
open BigOperators Set Topology Filter

/-- Weights of the bed that are not negative. -/
theorem axial_weights {z : ℕ} {A : Fin (z + 1) → Fin (z + 1) → ℝ} (h : Spec.AxialGrid z A) (hM : 2 ≤ z) :
    ∃ g : Fin (z + 1) → ℝ, (∀ w, 0 ≤ g w) ∧ g 0 = 0 ∧ ∑ w, g w = 1 ∧ Spec.Telescopes A g := by
  cases h with
  | single h =>
    obtain ⟨g, hg, ht⟩ := c155_weights_single (by omega) h
    exact ⟨g, hg.nonneg, hg.inlet, hg.sum, ht⟩
  | elements h K =>
    obtain ⟨g, hg, ht⟩ := c155_weights le_rfl h (Nat.succ_pos K)
    exact ⟨g, hg.nonneg, hg.inlet, hg.sum, ht⟩

theorem bead_third {r : ℕ} {jac : Fin r → ℝ} {B : Fin (r + 1) → Fin (r + 1) → ℝ} {W : Fin (r + 1) → ℝ} (h : Spec.BeadGrid jac B W) :
    3 * ∑ k, W k = 1 := by
  rw [h.weights, (c17_positive_sum (Nat.succ_pos r) (radialNodes_inj h.zeros.1 (fun i => (h.zeros.2.1 i).2))
      (radialNodes_pos (fun i => (h.zeros.2.1 i).1)) (by norm_num : (0:ℝ) < 3)).2]
  norm_num

/-- A mean of numbers within `d` of `0`. -/
theorem mean_abs {ι : Type} [Fintype ι] {g f : ι → ℝ} {d : ℝ} (hg : ∀ w, 0 ≤ g w) (hf : ∀ w, g w ≠ 0 → |f w| ≤ d) :
    |∑ w, g w * f w| ≤ (∑ w, g w) * d := by
  rw [Finset.sum_mul]
  refine (Finset.abs_sum_le_sum_abs _ _).trans (Finset.sum_le_sum fun w _ => ?_)
  rw [abs_mul, abs_of_nonneg (hg w)]
  by_cases h : g w = 0
  · simp [h]
  · exact mul_le_mul_of_nonneg_left (hf w h) (hg w)

/-- The mean of `f` tends to `c` if that of `s` does and the integrals stay close. -/
theorem mean_close {f s : ℝ → ℝ} {c K : ℝ} (h : ∀ T, 0 ≤ T → |(∫ t in (0 : ℝ)..T, f t) - ∫ t in (0 : ℝ)..T, s t| ≤ K)
    (hs : Tendsto (fun T => (∫ t in (0 : ℝ)..T, s t) / T) atTop (𝓝 c)) : Tendsto (fun T => (∫ t in (0 : ℝ)..T, f t) / T) atTop (𝓝 c) := by
  have h1 : Tendsto (fun T => (∫ t in (0 : ℝ)..T, f t) / T - (∫ t in (0 : ℝ)..T, s t) / T) atTop (𝓝 0) := by
    refine squeeze_zero_norm' (a := fun T => K / T) ?_ (tendsto_const_nhds.div_atTop tendsto_id)
    filter_upwards [eventually_gt_atTop 0] with T hT
    rw [← sub_div, Real.norm_eq_abs, abs_div, abs_of_pos hT]
    exact div_le_div_of_nonneg_right (h T hT.le) hT.le
  simpa using h1.add hs

section ion
variable {r p z : ℕ} {m : ColModel} {P : ColParams r p z} {jac : Fin r → ℝ} {tH : ℝ}

/-- C277, ion exchange. If no water and no loading of ion `i` differs by more than `d` between two times of a run, what left and what entered
between them differ by at most what `d` is in the empty bed: `d` times the time `L / v` the water needs for the bed, in units of `tH`. -/
theorem c277_ion (hg : Spec.BeadGrid jac P.Br P.Wr) (hz : Spec.AxialGrid z P.Az) (hM : 2 ≤ z) (hE : 0 < P.EBED ∧ P.EBED < 1)
    (hf : 0 < P.v ∧ 0 < P.L) (ht : 0 < tH) {s : ℝ → Fin (p + 1) → ℝ} (i : Fin (p + 1)) {t0 t1 : ℝ} (h01 : t0 ≤ t1) {y : ℝ → ColState r p z}
    (hy : Spec.Solves colComp (fun t u => m.rhs P tH (s t) u) t0 t1 y) (hi : IntervalIntegrable (fun t => s t i) MeasureTheory.volume t0 t1)
    {d : ℝ} (hw : ∀ w, w ≠ 0 → |y t1 0 i w - y t0 0 i w| ≤ d) (hb : ∀ (k : Fin (r + 1)) w, w ≠ 0 → |y t1 k.succ i w - y t0 k.succ i w| ≤ d) :
    |(∫ t in t0..t1, y t 0 i (Fin.last z)) - ∫ t in t0..t1, s t i| ≤ d * (P.L / P.v) / tH := by
  obtain ⟨g, hg0, hgi, hgs, hgt⟩ := axial_weights hz hM
  have hB := c155_solutions m P (by omega) tH s (hg.wpos _).ne' hE.1.ne' hgi hgt i h01 hy hi
  have h3 := bead_third hg
  have hd : |Spec.colContent P.EBED P.Wr g (y t1) i - Spec.colContent P.EBED P.Wr g (y t0) i| ≤ d := by
    have e : Spec.colContent P.EBED P.Wr g (y t1) i - Spec.colContent P.EBED P.Wr g (y t0) i =
        ∑ w, g w * (P.EBED * (y t1 0 i w - y t0 0 i w) +
          (1 - P.EBED) * (3 * ∑ k : Fin (r + 1), P.Wr k * (y t1 k.succ i w - y t0 k.succ i w))) := by
      unfold Spec.colContent
      rw [← Finset.sum_sub_distrib]
      refine Finset.sum_congr rfl fun w _ => ?_
      simp only [mul_sub, Finset.sum_sub_distrib]
      ring
    rw [e]
    refine (mean_abs hg0 (d := d) fun w hgw => ?_).trans (by rw [hgs, one_mul])
    have hw0 : w ≠ 0 := fun h => hgw (by rw [h, hgi])
    have h1 : |∑ k : Fin (r + 1), P.Wr k * (y t1 k.succ i w - y t0 k.succ i w)| ≤ (∑ k, P.Wr k) * d :=
      mean_abs (fun k => (hg.wpos k).le) fun k _ => hb k w hw0
    have h2 := hw w hw0
    rw [abs_le] at h1 h2 ⊢
    have hs : 3 * ((∑ k, P.Wr k) * d) = d := by rw [← mul_assoc, h3, one_mul]
    have hE1 : 0 < 1 - P.EBED := by linarith [hE.2]
    constructor <;> nlinarith [h1.1, h1.2, h2.1, h2.2, hE.1]
  rw [hB, abs_mul, abs_sub_comm] at hd
  have hk : 0 < P.v / P.L * tH := mul_pos (div_pos hf.1 hf.2) ht
  rw [abs_of_pos hk] at hd
  have e : d * (P.L / P.v) / tH = d / (P.v / P.L * tH) := by
    have := hf.1.ne'
    have := hf.2.ne'
    have := ht.ne'
    field_simp
  rw [e, le_div_iff₀ hk, mul_comm]
  exact hd

/-- C277, ion exchange. Over a time after which the column is as before, what leaves is what entered. -/
theorem c277_ion_cycle (hg : Spec.BeadGrid jac P.Br P.Wr) (hz : Spec.AxialGrid z P.Az) (hM : 2 ≤ z) (hE : 0 < P.EBED ∧ P.EBED < 1)
    (hf : 0 < P.v ∧ 0 < P.L) (ht : 0 < tH) {s : ℝ → Fin (p + 1) → ℝ} (i : Fin (p + 1)) {t0 t1 : ℝ} (h01 : t0 ≤ t1) {y : ℝ → ColState r p z}
    (hy : Spec.Solves colComp (fun t u => m.rhs P tH (s t) u) t0 t1 y) (hi : IntervalIntegrable (fun t => s t i) MeasureTheory.volume t0 t1)
    (he : y t1 = y t0) : ∫ t in t0..t1, y t 0 i (Fin.last z) = ∫ t in t0..t1, s t i := by
  have := c277_ion hg hz hM hE hf ht i h01 hy hi (d := 0) (fun w _ => by simp [he]) (fun k w _ => by simp [he])
  rw [zero_mul, zero_div] at this
  exact sub_eq_zero.1 (abs_nonpos_iff.1 this)

/-- C277, ion exchange. If all of the ion stays within `b` for ever, its mean in the effluent tends to what its mean in the influent tends to. -/
theorem c277_ion_mean (hg : Spec.BeadGrid jac P.Br P.Wr) (hz : Spec.AxialGrid z P.Az) (hM : 2 ≤ z) (hE : 0 < P.EBED ∧ P.EBED < 1)
    (hf : 0 < P.v ∧ 0 < P.L) (ht : 0 < tH) {s : ℝ → Fin (p + 1) → ℝ} (i : Fin (p + 1)) {y : ℝ → ColState r p z}
    (hy : ∀ T, Spec.Solves colComp (fun t u => m.rhs P tH (s t) u) 0 T y)
    (hi : ∀ T, 0 ≤ T → IntervalIntegrable (fun t => s t i) MeasureTheory.volume 0 T) {b : ℝ}
    (hw : ∀ t, 0 ≤ t → ∀ k w, w ≠ 0 → |y t k i w| ≤ b) {c : ℝ} (hs : Tendsto (fun T => (∫ t in (0 : ℝ)..T, s t i) / T) atTop (𝓝 c)) :
    Tendsto (fun T => (∫ t in (0 : ℝ)..T, y t 0 i (Fin.last z)) / T) atTop (𝓝 c) := by
  refine mean_close (K := (b + b) * (P.L / P.v) / tH) (fun T hT => ?_) hs
  have h2 : ∀ k w, w ≠ 0 → |y T k i w - y 0 k i w| ≤ b + b := fun k w hw0 =>
    (abs_sub _ _).trans (add_le_add (hw T hT k w hw0) (hw 0 le_rfl k w hw0))
  exact c277_ion hg hz hM hE hf ht i hT (hy T) (hi T hT) (fun w hw0 => h2 0 w hw0) fun k w hw0 => h2 k.succ w hw0

/-- C277, ion exchange. A column with ions of mild mobilities that starts within `ε` of exhaustion, under an influent of constant total that stays
within `β` of `cin`: what left and what entered never differ by more than `C (ε + β)`. -/
theorem c277_ion_near (hM : 2 ≤ z) {cin q : Fin (p + 1) → ℝ} {Q : ℝ} (h : Spec.MildColumn m P jac tH cin q) (hc : ∀ i, 0 < cin i)
    (hq : Spec.SpentLoadings m P cin Q q) : ∃ δ C : ℝ, 0 < δ ∧ 0 < C ∧
    ∀ (ε β T : ℝ) (s : ℝ → Fin (p + 1) → ℝ) (y : ℝ → ColState r p z), 0 ≤ T → Spec.Solves colComp (fun t u => m.rhs P tH (s t) u) 0 T y →
      (∀ i, IntervalIntegrable (fun t => s t i) MeasureTheory.volume 0 T) → (∀ t ∈ Icc 0 T, ∑ i, s t i = ∑ i, cin i) →
      (∀ t ∈ Icc 0 T, ∀ i, |s t i - cin i| ≤ β) → Spec.Totals (∑ i, cin i) Q (y 0) → Spec.IonWithin cin q ε (y 0) → ε ≤ δ → β ≤ δ →
      ∀ i, |(∫ t in (0 : ℝ)..T, y t 0 i (Fin.last z)) - ∫ t in (0 : ℝ)..T, s t i| ≤ C * (ε + β) := by
  obtain ⟨δ, C, ω, hδ, hC, hω, hG⟩ := c274_gain h hc hq
  have hf := h.flow
  have htH := h.time
  have hk : 0 < P.L / P.v / tH := div_pos (div_pos hf.2 hf.1) htH
  refine ⟨δ, (C + 1) * (P.L / P.v / tH), hδ, by positivity, fun ε β T s y hT hy hi hst hs hyT hy0 hε hβ i => ?_⟩
  have hw := hG ε β T s y hy hst hs hyT hy0 hε hβ T ⟨hT, le_rfl⟩
  have hε0 : 0 ≤ ε := (abs_nonneg _).trans (hy0.2 0 0 0)
  have hβ0 : 0 ≤ β := (abs_nonneg _).trans (hs 0 ⟨le_rfl, hT⟩ 0)
  have hexp : Real.exp (-(ω * T)) ≤ 1 := Real.exp_le_one_iff.2 (by have := mul_nonneg hω.le hT; linarith)
  have hb : C * (Real.exp (-(ω * T)) * ε + β) + ε ≤ (C + 1) * (ε + β) := by
    have : C * (Real.exp (-(ω * T)) * ε + β) ≤ C * (ε + β) := mul_le_mul_of_nonneg_left (by nlinarith) hC.le
    nlinarith
  have key : ∀ a a' b : ℝ, |a - b| ≤ C * (Real.exp (-(ω * T)) * ε + β) → |a' - b| ≤ ε → |a - a'| ≤ (C + 1) * (ε + β) := fun a a' b h1 h2 => by
    rw [abs_le] at h1 h2 ⊢
    constructor <;> linarith [h1.1, h1.2, h2.1, h2.2]
  refine (c277_ion h.grid h.axial hM h.bed hf htH i hT hy (hi i) (fun w hw0 => key _ _ _ (hw.1 i w hw0) (hy0.1 i w hw0))
    fun k w _ => key _ _ _ (hw.2 k i w) (hy0.2 k i w)).trans (le_of_eq ?_)
  ring

end ion

section gac
variable {n r z : ℕ} {D : GacDim n r z} {jac : Fin r → ℝ}

/-- C277, carbon. If no water differs by more than `d` and no loading of compound `i` by more than `e` between two times of a run, with any
fouling and tortuosity in time, what left and what entered between them differ by at most `(d + dg e) / dg1`. -/
theorem c277_gac (hg : Spec.BeadGrid jac D.br D.wr) (hz : Spec.AxialGrid z D.az) (hM : 2 ≤ z) (hf : 0 < D.dg1) {i : Fin n} {dg : ℝ}
    (hdg : 0 < dg) (hI : D.dgI i = 1 / dg) {s fo fa : ℝ → Fin n → ℝ} {t0 t1 : ℝ} (h01 : t0 ≤ t1) {y : ℝ → GacState n r z}
    (hy : Spec.Solves gacComp (fun t u => gacRhs D (s t) (fo t) (fa t) u) t0 t1 y)
    (hi : IntervalIntegrable (fun t => s t i) MeasureTheory.volume t0 t1) {d e : ℝ}
    (hw : ∀ w, w ≠ 0 → |y t1 i (Fin.last (r + 1)) w - y t0 i (Fin.last (r + 1)) w| ≤ d)
    (hb : ∀ (k : Fin (r + 1)) w, w ≠ 0 → |y t1 i k.castSucc w - y t0 i k.castSucc w| ≤ e) :
    |(∫ t in t0..t1, y t i (Fin.last (r + 1)) (Fin.last z)) - ∫ t in t0..t1, s t i| ≤ (d + dg * e) / D.dg1 := by
  obtain ⟨g, hg0, hgi, hgs, hgt⟩ := axial_weights hz hM
  have hB := c156_solutions D (by omega) (hg.wpos _).ne' s fo fa i hdg.ne' hI hgi hgt h01 hy hi
  have h3 := bead_third hg
  have hd : |Spec.gacContent dg D.wr g (y t1) i - Spec.gacContent dg D.wr g (y t0) i| ≤ d + dg * e := by
    have e' : Spec.gacContent dg D.wr g (y t1) i - Spec.gacContent dg D.wr g (y t0) i =
        ∑ w, g w * (y t1 i (Fin.last (r + 1)) w - y t0 i (Fin.last (r + 1)) w +
          dg * (3 * ∑ k : Fin (r + 1), D.wr k * (y t1 i k.castSucc w - y t0 i k.castSucc w))) := by
      unfold Spec.gacContent
      rw [← Finset.sum_sub_distrib]
      refine Finset.sum_congr rfl fun w _ => ?_
      simp only [mul_sub, Finset.sum_sub_distrib]
      ring
    rw [e']
    refine (mean_abs hg0 (d := d + dg * e) fun w hgw => ?_).trans (by rw [hgs, one_mul])
    have hw0 : w ≠ 0 := fun h => hgw (by rw [h, hgi])
    have h1 : |∑ k : Fin (r + 1), D.wr k * (y t1 i k.castSucc w - y t0 i k.castSucc w)| ≤ (∑ k, D.wr k) * e :=
      mean_abs (fun k => (hg.wpos k).le) fun k _ => hb k w hw0
    have h2 := hw w hw0
    have hs : 3 * ((∑ k, D.wr k) * e) = e := by rw [← mul_assoc, h3, one_mul]
    refine (abs_add_le _ _).trans (add_le_add h2 ?_)
    rw [abs_mul, abs_of_pos hdg, abs_mul, abs_of_pos (by norm_num : (0 : ℝ) < 3)]
    exact mul_le_mul_of_nonneg_left ((mul_le_mul_of_nonneg_left h1 (by norm_num)).trans hs.le) hdg.le
  rw [hB, abs_mul, abs_sub_comm, abs_of_pos hf] at hd
  rw [le_div_iff₀ hf, mul_comm]
  exact hd

/-- C277, carbon. Over a time after which the column is as before, what leaves is what entered. -/
theorem c277_gac_cycle (hg : Spec.BeadGrid jac D.br D.wr) (hz : Spec.AxialGrid z D.az) (hM : 2 ≤ z) (hf : 0 < D.dg1) {i : Fin n}
    (hI : 0 < D.dgI i) {s fo fa : ℝ → Fin n → ℝ} {t0 t1 : ℝ} (h01 : t0 ≤ t1) {y : ℝ → GacState n r z}
    (hy : Spec.Solves gacComp (fun t u => gacRhs D (s t) (fo t) (fa t) u) t0 t1 y)
    (hi : IntervalIntegrable (fun t => s t i) MeasureTheory.volume t0 t1) (he : y t1 = y t0) :
    ∫ t in t0..t1, y t i (Fin.last (r + 1)) (Fin.last z) = ∫ t in t0..t1, s t i := by
  have := c277_gac hg hz hM hf (dg := 1 / D.dgI i) (by positivity) (by rw [one_div_one_div]) h01 hy hi (d := 0) (e := 0) (fun w _ => by simp [he])
    (fun k w _ => by simp [he])
  rw [mul_zero, add_zero, zero_div] at this
  exact sub_eq_zero.1 (abs_nonpos_iff.1 this)

/-- C277, carbon. If all of the compound stays within `b` for ever, its mean in the effluent tends to what its mean in the influent tends to. -/
theorem c277_gac_mean (hg : Spec.BeadGrid jac D.br D.wr) (hz : Spec.AxialGrid z D.az) (hM : 2 ≤ z) (hf : 0 < D.dg1) {i : Fin n}
    (hI : 0 < D.dgI i) {s fo fa : ℝ → Fin n → ℝ} {y : ℝ → GacState n r z}
    (hy : ∀ T, Spec.Solves gacComp (fun t u => gacRhs D (s t) (fo t) (fa t) u) 0 T y)
    (hi : ∀ T, 0 ≤ T → IntervalIntegrable (fun t => s t i) MeasureTheory.volume 0 T) {b : ℝ}
    (hw : ∀ t, 0 ≤ t → ∀ k w, w ≠ 0 → |y t i k w| ≤ b) {c : ℝ} (hs : Tendsto (fun T => (∫ t in (0 : ℝ)..T, s t i) / T) atTop (𝓝 c)) :
    Tendsto (fun T => (∫ t in (0 : ℝ)..T, y t i (Fin.last (r + 1)) (Fin.last z)) / T) atTop (𝓝 c) := by
  refine mean_close (K := (b + b + 1 / D.dgI i * (b + b)) / D.dg1) (fun T hT => ?_) hs
  have h2 : ∀ k w, w ≠ 0 → |y T i k w - y 0 i k w| ≤ b + b := fun k w hw0 =>
    (abs_sub _ _).trans (add_le_add (hw T hT k w hw0) (hw 0 le_rfl k w hw0))
  exact c277_gac hg hz hM hf (by positivity) (by rw [one_div_one_div]) hT (hy T) (hi T hT) (fun w hw0 => h2 _ w hw0) fun k w hw0 => h2 _ w hw0

/-- C277, carbon. A column with competing compounds that starts within `ε` of exhaustion, under influents that stay within `β` of `c`: what left
and what entered never differ by more than `C (ε + β)`. -/
theorem c277_gac_near [NeZero n] (hM : 2 ≤ z) {c fo fa q : Fin n → ℝ} (h : Spec.MixSetting D jac c fo fa q) : ∃ δ C : ℝ, 0 < δ ∧ 0 < C ∧
    ∀ (ε β T : ℝ) (s : ℝ → Fin n → ℝ) (y : ℝ → GacState n r z), 0 ≤ T → Spec.Solves gacComp (fun t u => gacRhs D (s t) fo fa u) 0 T y →
      (∀ i, IntervalIntegrable (fun t => s t i) MeasureTheory.volume 0 T) → (∀ t ∈ Icc 0 T, ∀ i, |s t i - c i| ≤ β) →
      Spec.MixWithin c q ε (y 0) → ε ≤ δ → β ≤ δ →
      ∀ i, |(∫ t in (0 : ℝ)..T, y t i (Fin.last (r + 1)) (Fin.last z)) - ∫ t in (0 : ℝ)..T, s t i| ≤ C * (ε + β) := by
  obtain ⟨δ, C, ω, hδ, hC, hω, hG⟩ := c273_gain h
  have hf := h.flow
  have hdI : ∀ i, 0 < 1 / D.dgI i := fun i => one_div_pos.2 (h.dgI i)
  have hsum : 0 < ∑ i, 1 / D.dgI i := Finset.sum_pos (fun i _ => hdI i) Finset.univ_nonempty
  refine ⟨δ, (C + 1) * (1 + ∑ i, 1 / D.dgI i) / D.dg1, hδ, by positivity, fun ε β T s y hT hy hi hs hy0 hε hβ i => ?_⟩
  have hw := hG ε β T s y hy hs hy0 hε hβ T ⟨hT, le_rfl⟩
  have hε0 : 0 ≤ ε := (abs_nonneg _).trans (hy0.1 i 0 0)
  have hβ0 : 0 ≤ β := (abs_nonneg _).trans (hs 0 ⟨le_rfl, hT⟩ i)
  have hexp : Real.exp (-(ω * T)) ≤ 1 := Real.exp_le_one_iff.2 (by have := mul_nonneg hω.le hT; linarith)
  have hb : C * (Real.exp (-(ω * T)) * ε + β) + ε ≤ (C + 1) * (ε + β) := by
    have : C * (Real.exp (-(ω * T)) * ε + β) ≤ C * (ε + β) := mul_le_mul_of_nonneg_left (by nlinarith) hC.le
    nlinarith
  have key : ∀ a a' b : ℝ, |a - b| ≤ C * (Real.exp (-(ω * T)) * ε + β) → |a' - b| ≤ ε → |a - a'| ≤ (C + 1) * (ε + β) := fun a a' b h1 h2 => by
    rw [abs_le] at h1 h2 ⊢
    constructor <;> linarith [h1.1, h1.2, h2.1, h2.2]
  refine (c277_gac h.beads h.axial hM hf (hdI i) (by rw [one_div_one_div]) hT hy (hi i) (fun w hw0 => key _ _ _ (hw.2 i w hw0) (hy0.2 i w hw0))
    fun k w _ => key _ _ _ (hw.1 i k w) (hy0.1 i k w)).trans ?_
  have hle : 1 / D.dgI i ≤ ∑ i, 1 / D.dgI i := Finset.single_le_sum (f := fun i => 1 / D.dgI i) (fun j _ => (hdI j).le) (Finset.mem_univ i)
  rw [div_mul_eq_mul_div (c := ε + β) (b := D.dg1)]
  refine div_le_div_of_nonneg_right ?_ hf.le
  have : 0 ≤ (C + 1) * (ε + β) := by positivity
  nlinarith

/-- Two compounds in competition on columns of any numbers of nodes, and influents that swing for ever: there is a run that recurs, and over each
period the effluent carries what the influent does. -/
example (r z : ℕ) (hM : 2 ≤ z) (A : Fin (z + 1) → Fin (z + 1) → ℝ) (hA : Spec.AxialGrid z A) : ∃ (D : GacDim 2 r z) (c : Fin 2 → ℝ) (β : ℝ)
    (y : ℝ → GacState 2 r z), 0 < β ∧ D.az = A ∧ 0 < c 0 ∧
    (∀ T, Spec.Solves gacComp (fun t u => gacRhs D (fun i => c i + β * Real.sin t) 1 1 u) 0 T y) ∧
    ∫ t in (0 : ℝ)..2 * Real.pi, y t 0 (Fin.last (r + 1)) (Fin.last z) = 2 * Real.pi * c 0 := by
  obtain ⟨D, jac, hD, -, -, -, hz⟩ := mix_setting_ex r z A hA
  set c : Fin 2 → ℝ := ![9 / 2, 81 / 32] with hc
  obtain ⟨δ, C, ω, ρ, hδ, hC, hω, hρ, hx⟩ := c275_cycle hD
  have hsin : ∀ t i, |c i + ρ * Real.sin t - c i| ≤ ρ := fun t i => by
    rw [add_sub_cancel_left, abs_mul, abs_of_pos hρ]
    exact mul_le_of_le_one_right hρ.le (Real.abs_sin_le_one t)
  obtain ⟨y, hy, hyp, -⟩ := hx (fun t i => c i + ρ * Real.sin t) (2 * Real.pi) ρ (by fun_prop) Real.two_pi_pos
    (fun t => by beta_reduce; rw [Real.sin_add_two_pi]) hsin le_rfl
  have hper := hyp 0 le_rfl
  rw [zero_add] at hper
  refine ⟨D, c, ρ, y, hρ, hz, by simp [hc], hy, ?_⟩
  rw [c277_gac_cycle hD.beads hD.axial hM hD.flow (hD.dgI 0) (fo := fun _ => 1) (fa := fun _ => 1) Real.two_pi_pos.le (hy _)
    (by apply Continuous.intervalIntegrable; fun_prop) hper]
  rw [intervalIntegral.integral_add (by simp) (by apply Continuous.intervalIntegrable; fun_prop), intervalIntegral.integral_const_mul, integral_sin]
  simp

end gac

/-- Chloride, sulfate and nitrate, on columns of any numbers of nodes: a run that recurs with an influent that trades chloride for nitrate
delivers in each period the nitrate of the mean influent. -/
example (m : ColModel) (r z : ℕ) (hM : 2 ≤ z) (A : Fin (z + 1) → Fin (z + 1) → ℝ) (hA : Spec.AxialGrid z A) : ∃ (P : ColParams r 2 z)
    (β : ℝ) (y : ℝ → ColState r 2 z), P.Ds 2 = 16 * P.Ds 1 ∧ 0 < β ∧
    (∀ T, Spec.Solves colComp (fun t u => m.rhs P 1 ![8 - β * Real.sin t, 1, 2 + β * Real.sin t] u) 0 T y) ∧
    ∫ t in (0 : ℝ)..2 * Real.pi, y t 0 2 (Fin.last z) = 2 * Real.pi * 2 := by
  obtain ⟨P, jac, q, Q, hP, hq, hP1, -⟩ := ion_column_ex m r z A hA
  have hc : ∀ i, 0 < (![8, 1, 2] : Fin 3 → ℝ) i := fun i => by fin_cases i <;> simp
  obtain ⟨δ2, C, ω, ρ, hδ2, hC, hω, hρ, hcyc⟩ := c276_cycle hP hc hq
  set s : ℝ → Fin 3 → ℝ := fun t => ![8 - ρ * Real.sin t, 1, 2 + ρ * Real.sin t] with hs
  have hsc : Continuous s := by
    refine continuous_pi fun i => ?_
    fin_cases i
    · show Continuous fun t => 8 - ρ * Real.sin t
      fun_prop
    · exact continuous_const
    · show Continuous fun t => 2 + ρ * Real.sin t
      fun_prop
  have hst : ∀ t, ∑ i, s t i = ∑ i, (![8, 1, 2] : Fin 3 → ℝ) i := fun t => by
    rw [Fin.sum_univ_three, Fin.sum_univ_three]
    simp [s]
    ring
  have hsd : ∀ t i, |s t i - (![8, 1, 2] : Fin 3 → ℝ) i| ≤ ρ := fun t i => by
    have h1 : |ρ * Real.sin t| ≤ ρ := by
      rw [abs_mul, abs_of_pos hρ]
      nlinarith [Real.abs_sin_le_one t]
    fin_cases i
    · simpa [s] using h1
    · simpa [s] using hρ.le
    · simpa [s] using h1
  obtain ⟨y, hy, hyp, -⟩ := hcyc s (2 * Real.pi) ρ hsc Real.two_pi_pos (fun t => by
    simp only [hs]
    rw [Real.sin_add_two_pi]) hst hsd le_rfl
  have hper := hyp 0 le_rfl
  rw [zero_add] at hper
  refine ⟨P, ρ, y, hP1, hρ, hy, ?_⟩
  rw [c277_ion_cycle hP.grid hP.axial hM hP.bed hP.flow hP.time 2 Real.two_pi_pos.le (hy _)
    (by apply Continuous.intervalIntegrable; exact (continuous_apply 2).comp hsc) hper]
  show ∫ t in (0 : ℝ)..2 * Real.pi, (2 + ρ * Real.sin t) = _
  rw [intervalIntegral.integral_add (by simp) (by apply Continuous.intervalIntegrable; fun_prop), intervalIntegral.integral_const_mul, integral_sin]
  simp

end WTM
