import Mathlib.Tactic
import Verif.Props.BatchLimit

/-! Property C240: more resin, more capacity or a larger selectivity leaves less of the ion in a batch. -/
set_option autoImplicit false
namespace WTM
open BigOperators Set Filter Topology

section
variable {r r' : ℕ} {P : BatchParams r 1} {P' : BatchParams r' 1} {jac : Fin r → ℝ} {jac' : Fin r' → ℝ}

/-- The ion that came with the water is partly exchanged. -/
theorem exchange_inside (h : Spec.Contactor P jac) (hk : 0 < P.K 1) (hC : 0 < P.C0 1) {q c : Fin 2 → ℝ} (he : Spec.Exchange P q c) :
    0 < c 1 ∧ c 1 < P.C0 1 := by
  have hl := he.law
  have hw := he.water
  have hr := he.resin
  have hb := he.balance
  have hQ := h.resin
  obtain ⟨hVR, hVL⟩ := h.vol
  have n0 := he.nonneg 0
  have n1 := he.nonneg 1
  have hC0 := h.conc 0
  have hq : 0 < c 1 := by
    refine lt_of_le_of_ne n1.2 fun h0 => ?_
    rw [← h0] at hl hw hb
    have hc0 : c 0 ≠ 0 := by linarith
    have hq1 : q 1 = 0 := by
      rcases mul_eq_zero.1 (by linarith : q 1 * c 0 = 0) with h | h
      · exact h
      · exact absurd h hc0
    rw [hq1] at hb
    have := mul_pos hVL hC
    linarith
  refine ⟨hq, ?_⟩
  have hq1 : 0 < q 1 := by
    refine lt_of_le_of_ne n1.1 fun h0 => ?_
    rw [← h0] at hl hr
    have h2 : q 0 = P.RHOP * P.Qm := by linarith
    have : 0 < P.K 1 * q 0 * c 1 := by
      rw [h2]
      exact mul_pos (mul_pos hk hQ) hq
    linarith
  have := mul_pos hVR hq1
  have : P.VL * c 1 < P.VL * P.C0 1 := by linarith
  exact lt_of_mul_lt_mul_left this hVL.le

/-- The balance with the loading eliminated. -/
theorem exchange_closed (h : Spec.Contactor P jac) (hk : 0 < P.K 1) (hC : 0 < P.C0 1) {q c : Fin 2 → ℝ} (he : Spec.Exchange P q c) :
    (P.C0 1 - c 1) * (((P.C0 0 + P.C0 1) / c 1 - 1) / P.K 1 + 1) = P.VR * (P.RHOP * P.Qm) / P.VL := by
  have hl := he.law
  have hw : c 0 = P.C0 0 + P.C0 1 - c 1 := by linarith [he.water]
  have hr : q 0 = P.RHOP * P.Qm - q 1 := by linarith [he.resin]
  have hb := he.balance
  have hVL := h.vol.2.ne'
  have hc := (exchange_inside h hk hC he).1.ne'
  rw [hw, hr] at hl
  have hb' : P.VR * q 1 = P.VL * (P.C0 1 - c 1) := by linarith
  have := hk.ne'
  generalize P.RHOP * P.Qm = Q at *
  field_simp
  linear_combination (-P.VR) * hl - (P.C0 0 + P.C0 1 - c 1 + P.K 1 * c 1) * hb'

/-- C240. Of two batches of the same water the one with more resin, more capacity or the larger selectivity ends at the lower
concentration of the ion. -/
theorem c240_exchange (h : Spec.Contactor P jac) (h' : Spec.Contactor P' jac') (hk : 0 < P.K 1) (hC : P'.C0 = P.C0) (hC1 : 0 < P.C0 1)
    (hs : P.VR * (P.RHOP * P.Qm) / P.VL ≤ P'.VR * (P'.RHOP * P'.Qm) / P'.VL) (hK : P.K 1 ≤ P'.K 1)
    (hne : P.VR * (P.RHOP * P.Qm) / P.VL < P'.VR * (P'.RHOP * P'.Qm) / P'.VL ∨ P.K 1 < P'.K 1) {q c q' c' : Fin 2 → ℝ}
    (he : Spec.Exchange P q c) (he' : Spec.Exchange P' q' c') : 0 < c' 1 ∧ c' 1 < c 1 ∧ c 1 < P.C0 1 := by
  have hk' : 0 < P'.K 1 := hk.trans_le hK
  have hC1' : 0 < P'.C0 1 := by rw [hC]; exact hC1
  have i := exchange_inside h hk hC1 he
  have i' := exchange_inside h' hk' hC1' he'
  have e := exchange_closed h hk hC1 he
  have e' := exchange_closed h' hk' hC1' he'
  rw [hC] at e' i'
  refine ⟨i'.1, ?_, i.2⟩
  by_contra hle
  push Not at hle
  have hC0 := h.conc 0
  generalize P.VR * (P.RHOP * P.Qm) / P.VL = s at *
  generalize P'.VR * (P'.RHOP * P'.Qm) / P'.VL = s' at *
  have g0 : 0 < (P.C0 0 + P.C0 1) / c' 1 - 1 := by
    rw [sub_pos, one_lt_div i'.1]
    linarith [i'.2]
  have g1 : (P.C0 0 + P.C0 1) / c' 1 - 1 ≤ (P.C0 0 + P.C0 1) / c 1 - 1 := by
    have : (P.C0 0 + P.C0 1) / c' 1 ≤ (P.C0 0 + P.C0 1) / c 1 := div_le_div_of_nonneg_left (by linarith) i.1 hle
    linarith
  have g2 : ((P.C0 0 + P.C0 1) / c' 1 - 1) / P'.K 1 ≤ ((P.C0 0 + P.C0 1) / c' 1 - 1) / P.K 1 :=
    div_le_div_of_nonneg_left g0.le hk hK
  have g3 : ((P.C0 0 + P.C0 1) / c' 1 - 1) / P.K 1 ≤ ((P.C0 0 + P.C0 1) / c 1 - 1) / P.K 1 :=
    div_le_div_of_nonneg_right g1 hk.le
  have g4 : 0 < ((P.C0 0 + P.C0 1) / c' 1 - 1) / P'.K 1 + 1 := by
    have := div_pos g0 hk'
    linarith
  have a1 : (P.C0 1 - c' 1) * (((P.C0 0 + P.C0 1) / c' 1 - 1) / P'.K 1 + 1) ≤
      (P.C0 1 - c 1) * (((P.C0 0 + P.C0 1) / c' 1 - 1) / P'.K 1 + 1) := mul_le_mul_of_nonneg_right (by linarith) g4.le
  rcases hne with hlt | hlt
  · have a2 : (P.C0 1 - c 1) * (((P.C0 0 + P.C0 1) / c' 1 - 1) / P'.K 1 + 1) ≤
        (P.C0 1 - c 1) * (((P.C0 0 + P.C0 1) / c 1 - 1) / P.K 1 + 1) := mul_le_mul_of_nonneg_left (by linarith) (by linarith [i.2])
    linarith
  · have g5 : ((P.C0 0 + P.C0 1) / c' 1 - 1) / P'.K 1 < ((P.C0 0 + P.C0 1) / c' 1 - 1) / P.K 1 :=
      div_lt_div_of_pos_left g0 hk hlt
    have a2 : (P.C0 1 - c 1) * (((P.C0 0 + P.C0 1) / c' 1 - 1) / P'.K 1 + 1) <
        (P.C0 1 - c 1) * (((P.C0 0 + P.C0 1) / c 1 - 1) / P.K 1 + 1) := mul_lt_mul_of_pos_left (by linarith) (by linarith [i.2])
    linarith

/-- C240. Over exact runs that settle, of either model. -/
theorem c240_run (h : Spec.Contactor P jac) (h' : Spec.Contactor P' jac') (m m' : BatchModel) (hS : Spec.Settles m P)
    (hS' : Spec.Settles m' P') (hk : 0 < P.K 1) (hC : P'.C0 = P.C0) (hC1 : 0 < P.C0 1)
    (hs : P.VR * (P.RHOP * P.Qm) / P.VL ≤ P'.VR * (P'.RHOP * P'.Qm) / P'.VL) (hK : P.K 1 ≤ P'.K 1)
    (hne : P.VR * (P.RHOP * P.Qm) / P.VL < P'.VR * (P'.RHOP * P'.Qm) / P'.VL ∨ P.K 1 < P'.K 1) {y : ℝ → BatchState r 1}
    {y' : ℝ → BatchState r' 1} (hy : m.RunsOn P y) (h0 : y 0 = batchInit P) (hy' : m'.RunsOn P' y') (h0' : y' 0 = batchInit P') :
    ∃ c c', Tendsto (fun t => y t 0 1) atTop (𝓝 c) ∧ Tendsto (fun t => y' t 0 1) atTop (𝓝 c') ∧ 0 < c' ∧ c' < c ∧ c < P.C0 1 := by
  obtain ⟨⟨q, c⟩, he, -⟩ := c220_exchange h hk
  obtain ⟨⟨q', c'⟩, he', -⟩ := c220_exchange h' (hk.trans_le hK)
  obtain ⟨z, -, -, hu, hl⟩ := hS
  obtain ⟨z', -, -, hu', hl'⟩ := hS'
  have t1 : Tendsto (fun t => y t 0 1) atTop (𝓝 (c 1)) := by
    refine ((hl q c he 1).1).congr' ?_
    filter_upwards [eventually_ge_atTop 0] with t ht
    rw [hu t y (hy t) h0 t ⟨ht, le_rfl⟩]
  have t2 : Tendsto (fun t => y' t 0 1) atTop (𝓝 (c' 1)) := by
    refine ((hl' q' c' he' 1).1).congr' ?_
    filter_upwards [eventually_ge_atTop 0] with t ht
    rw [hu' t y' (hy' t) h0' t ⟨ht, le_rfl⟩]
  exact ⟨_, _, t1, t2, c240_exchange h h' hk hC hC1 hs hK hne he he'⟩

end

/-- C240. Any number of monovalent ions without selectivity: more resin or capacity leaves less of every ion but the presaturant. -/
theorem c240_equal {r r' p : ℕ} {P : BatchParams r p} {P' : BatchParams r' p} {jac : Fin r → ℝ} {jac' : Fin r' → ℝ}
    (h : Spec.Contactor P jac) (h' : Spec.Contactor P' jac') (m m' : BatchModel) (hK : ∀ i, P.K i = 1) (hK' : ∀ i, P'.K i = 1)
    (hC : P'.C0 = P.C0) (hs : P.VR * (P.RHOP * P.Qm) / P.VL < P'.VR * (P'.RHOP * P'.Qm) / P'.VL) {i : Fin (p + 1)} (hi : i ≠ 0)
    (hCi : 0 < P.C0 i) {y : ℝ → BatchState r p} {y' : ℝ → BatchState r' p} (hy : m.RunsOn P y) (h0 : y 0 = batchInit P)
    (hy' : m'.RunsOn P' y') (h0' : y' 0 = batchInit P') :
    ∃ c c', Tendsto (fun t => y t 0 i) atTop (𝓝 c) ∧ Tendsto (fun t => y' t 0 i) atTop (𝓝 c') ∧ 0 < c' ∧ c' < c ∧ c < P.C0 i := by
  obtain ⟨z, -, -, hu, hl⟩ := c220_start h hK m
  obtain ⟨z', -, -, hu', hl'⟩ := c220_start h' hK' m'
  have q1 : (fun t => z t 0 i) =ᶠ[atTop] fun t => y t 0 i := by
    filter_upwards [eventually_ge_atTop 0] with t ht
    rw [hu t y (hy t) h0 t ⟨ht, le_rfl⟩]
  have q2 : (fun t => z' t 0 i) =ᶠ[atTop] fun t => y' t 0 i := by
    filter_upwards [eventually_ge_atTop 0] with t ht
    rw [hu' t y' (hy' t) h0' t ⟨ht, le_rfl⟩]
  have t1 := ((hl i).1).congr' q1
  have t2 := ((hl' i).1).congr' q2
  rw [if_neg hi, add_zero] at t1 t2
  rw [hC] at t2
  have hT := h.total
  have hVL := h.vol.2
  have hVL' := h'.vol.2
  have hQ : 0 < P.VR * (P.RHOP * P.Qm) / P.VL := div_pos (mul_pos h.vol.1 h.resin) hVL
  have form : ∀ {VL X : ℝ}, 0 < VL → 0 < X / VL → (∑ j, P.C0 j) * (VL * P.C0 i / (VL * ∑ j, P.C0 j + X)) =
      (∑ j, P.C0 j) * P.C0 i / (∑ j, P.C0 j + X / VL) := by
    intro VL X hV hX
    have hX' : 0 < X := by
      have := mul_pos hX hV
      rwa [div_mul_cancel₀ _ hV.ne'] at this
    have : VL * ∑ j, P.C0 j + X ≠ 0 := by positivity
    field_simp
  rw [form hVL hQ] at t1
  rw [form hVL' (hQ.trans hs)] at t2
  have hn : 0 < (∑ j, P.C0 j) * P.C0 i := mul_pos hT hCi
  refine ⟨_, _, t1, t2, div_pos hn (by linarith), div_lt_div_of_pos_left hn (by linarith) (by linarith), ?_⟩
  rw [div_lt_iff₀ (by linarith)]
  nlinarith [mul_pos hCi hQ]

/-- One and two volumes of resin: both settle, with one bead point, whatever the selectivity. -/
example (m : BatchModel) : ∃ (jac : Fin 0 → ℝ) (P P' : BatchParams 0 1), Spec.Contactor P jac ∧ Spec.Contactor P' jac ∧ Spec.Settles m P ∧
    Spec.Settles m P' ∧ P.K 1 = 3 ∧ P'.K 1 = 3 ∧ P'.C0 = P.C0 ∧ 0 < P.C0 1 ∧
    P.VR * (P.RHOP * P.Qm) / P.VL < P'.VR * (P'.RHOP * P'.Qm) / P'.VL := by
  obtain ⟨jac, B, W, g⟩ := beadGrid_exists 0
  let P : ℝ → BatchParams 0 1 := fun v => ⟨1, 5, 1 / 2, v, 100, 1, 2, 1, 1 / 10, ![1, 2], ![1, 3], fun _ => 1, B, W⟩
  have h : ∀ v, 0 < v → Spec.Contactor (P v) jac := by
    intro v hv
    refine ⟨g, by norm_num [P], by norm_num [P], ⟨hv, by norm_num [P]⟩, by norm_num [P], by norm_num [P], fun i => ?_, ?_, fun _ => rfl⟩
    · fin_cases i <;> norm_num [P]
    · have : ∑ i, (P v).C0 i = 1 + 2 := Fin.sum_univ_two _
      rw [this]; norm_num
  have hk : ∀ v, 0 < (P v).K 1 := fun v => by norm_num [P]
  refine ⟨jac, P 1, P 2, h 1 one_pos, h 2 two_pos, c220_single (h 1 one_pos) rfl (hk 1) m, c220_single (h 2 two_pos) rfl (hk 2) m, rfl, rfl,
    rfl, by norm_num [P], by norm_num [P]⟩

end WTM
