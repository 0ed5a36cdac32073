import Verif.Lemmas.Passive
import Verif.Props.ColumnInput

/-! Property C280: without selectivity a column of one element does not amplify what wavers in its influent: the square of the difference of
two effluents, added up over time, is no more than that of the influents. -/
set_option autoImplicit false
namespace WTM
open BigOperators Set

section
variable {r p n : ℕ} {m : ColModel} {P : ColParams r p (n + 1)} {jac : Fin r → ℝ} {tH CT Q : ℝ}

/-- Difference of two states below the inlet, for counter-ion `j`. -/
def diffExc {z : ℕ} (j : Fin p) (u u' : ColState r p z) : ColExc r z :=
  fun w => (fun k => u k.succ j.succ w.succ - u' k.succ j.succ w.succ, u 0 j.succ w.succ - u' 0 j.succ w.succ)

/-- The difference of two runs is a run of the linear column, pushed by the difference of the influents. -/
theorem plain_drive (h : Spec.PlainColumn m P jac tH) (hA : Spec.MovesAll P.Az) (hC : 0 < CT) (hQ : 0 < Q) (j : Fin p) {T : ℝ}
    {cin cin' : ℝ → Fin (p + 1) → ℝ} {y y' : ℝ → ColState r p (n + 1)} (hc : ∀ t ∈ Icc 0 T, ∑ i, cin t i = CT)
    (hc' : ∀ t ∈ Icc 0 T, ∑ i, cin' t i = CT) (hy : Spec.Solves colComp (fun t u => m.rhs P tH (cin t) u) 0 T y)
    (hy' : Spec.Solves colComp (fun t u => m.rhs P tH (cin' t) u) 0 T y') (h0 : Spec.Totals CT Q (y 0)) (h0' : Spec.Totals CT Q (y' 0)) :
    ∀ t ∈ Icc 0 T, HasDerivWithinAt (fun t => diffExc j (y t) (y' t))
      (colCL (CT / Q) (plainBeta m P tH (CT / Q) j.succ) (tH * P.kL j.succ / P.rb) (3 * (1 - P.EBED) / P.EBED) (P.v * tH / (P.L * P.EBED))
        P.Az P.Br P.Wr (diffExc j (y t) (y' t)) - (cin t j.succ - cin' t j.succ) •
        colCL (CT / Q) (plainBeta m P tH (CT / Q) j.succ) (tH * P.kL j.succ / P.rb) (3 * (1 - P.EBED) / P.EBED) (P.v * tH / (P.L * P.EBED))
        P.Az P.Br P.Wr (fun _ => (fun _ => 1 / (CT / Q), 1))) (Icc 0 T) t := by
  intro s hs
  have hst := totals_stay_var h hA hC hQ hc hy h0
  have hst' := totals_stay_var h hA hC hQ hc' hy' h0'
  have hi : j.succ ≠ 0 := Fin.succ_ne_zero j
  have hset : ∀ (c : Fin (p + 1) → ℝ) (u : ColState r p (n + 1)) (w : Fin (n + 1)), setInlet u c 0 j.succ w.succ = u 0 j.succ w.succ := by
    intro c u w
    unfold setInlet
    rw [if_neg]
    rintro ⟨-, h⟩
    exact Fin.succ_ne_zero w h
  have hcs := hc s hs
  have hcs' := hc' s hs
  have a1 := (plain_rates h hA (cin := cin s) (by rw [hcs]; exact hC) hQ (by rw [hcs]; exact hst s hs) hi).1
  have a2 := (plain_rates h hA (cin := cin' s) (by rw [hcs']; exact hC) hQ (by rw [hcs']; exact hst' s hs) hi).1
  rw [hcs] at a1
  rw [hcs'] at a2
  have d1 : diffExc j (y s) (y' s) - (cin s j.succ - cin' s j.succ) • (fun _ => (fun _ => 1 / (CT / Q), 1) : ColExc r (n + 1)) =
      (fun w : Fin (n + 1) => excAt (cin s) Q j.succ (y s) w.succ) - fun w : Fin (n + 1) => excAt (cin' s) Q j.succ (y' s) w.succ := by
    funext w
    refine Prod.ext (funext fun k => ?_) ?_
    · show (y s k.succ j.succ w.succ - y' s k.succ j.succ w.succ) - (cin s j.succ - cin' s j.succ) * (1 / (CT / Q)) =
        (y s k.succ j.succ w.succ - Q * cin s j.succ / ∑ j, cin s j) - (y' s k.succ j.succ w.succ - Q * cin' s j.succ / ∑ j, cin' s j)
      rw [hcs, hcs']
      field_simp
      ring
    · show (y s 0 j.succ w.succ - y' s 0 j.succ w.succ) - (cin s j.succ - cin' s j.succ) * 1 =
        (setInlet (y s) (cin s) 0 j.succ w.succ - cin s j.succ) - (setInlet (y' s) (cin' s) 0 j.succ w.succ - cin' s j.succ)
      simp only [hset]
      ring
  rw [← map_smul, ← map_sub, d1, map_sub, ← a1, ← a2]
  refine hasDerivWithinAt_pi.2 fun w => ?_
  refine HasDerivWithinAt.prodMk (hasDerivWithinAt_pi.2 fun k => ?_) ?_
  · exact (hy s hs (k.succ, j.succ, w.succ)).sub (hy' s hs (k.succ, j.succ, w.succ))
  · exact (hy s hs (0, j.succ, w.succ)).sub (hy' s hs (0, j.succ, w.succ))

theorem plain_consts (h : Spec.PlainColumn m P jac tH) (hC : 0 < CT) (hQ : 0 < Q) (j : Fin p) :
    0 < CT / Q ∧ 0 < plainBeta m P tH (CT / Q) j.succ ∧ 0 < tH * P.kL j.succ / P.rb ∧ 0 < 3 * (1 - P.EBED) / P.EBED ∧
      0 < P.v * tH / (P.L * P.EBED) := by
  have ha : 0 < CT / Q := div_pos hC hQ
  have hb := h.size
  have hE1 : 0 < 1 - P.EBED := sub_pos.2 h.bed.2
  have hE0 := h.bed.1
  have htm := h.time
  have hv := h.flow.1
  have hL := h.flow.2
  have hi : j.succ ≠ 0 := Fin.succ_ne_zero j
  have hk := (h.rates j.succ hi).2
  exact ⟨ha, plainBeta_pos h ha hi, by positivity, by positivity, by positivity⟩

/-- C280. Two runs under continuous influents of one total: for each counter-ion the square of the difference of the effluents, added up to any
time, is at most that of the influents and a multiple of the square of the difference `ε` at the start, so that of the influents if they start alike,
whatever the numbers of nodes. -/
theorem c280_square (h : Spec.PlainColumn m P jac tH) {leg : Fin n → ℝ} (hleg : Spec.ShJacobiRoots n 1 1 leg)
    (hz : P.Az = aMat (axialNodes leg)) (hC : 0 < CT) (hQ : 0 < Q) : ∃ K : ℝ, 0 < K ∧
    ∀ (ε T : ℝ) (cin cin' : ℝ → Fin (p + 1) → ℝ) (y y' : ℝ → ColState r p (n + 1)), 0 ≤ T → ContinuousOn cin (Icc 0 T) → ContinuousOn cin' (Icc 0 T) →
      (∀ t ∈ Icc 0 T, ∑ i, cin t i = CT) → (∀ t ∈ Icc 0 T, ∑ i, cin' t i = CT) → Spec.Solves colComp (fun t u => m.rhs P tH (cin t) u) 0 T y →
      Spec.Solves colComp (fun t u => m.rhs P tH (cin' t) u) 0 T y' → Spec.Totals CT Q (y 0) → Spec.Totals CT Q (y' 0) →
      Spec.ColNear ε (y 0) (y' 0) → ∀ j : Fin p, ∫ t in (0 : ℝ)..T, (y t 0 j.succ (Fin.last (n + 1)) - y' t 0 j.succ (Fin.last (n + 1))) ^ 2 ≤
        (∫ t in (0 : ℝ)..T, (cin t j.succ - cin' t j.succ) ^ 2) + K * ε ^ 2 := by
  have hA : Spec.MovesAll P.Az := axial_moves (by rw [hz]; exact .single hleg)
  obtain ⟨G, hG, hP⟩ := passive_legendre hleg
  rw [← hz] at hG hP
  -- energy of a start within `ε`
  have hb : ∀ j : Fin p, ∃ K : ℝ, 0 < K ∧ ∀ u : ColExc r (n + 1), cdot (CT / Q) (3 * (1 - P.EBED) / P.EBED) G P.Wr u u ≤ K * ‖u‖ ^ 2 := fun j => by
    obtain ⟨ha, -, -, hμ, -⟩ := plain_consts h hC hQ j
    refine quad_dominates (Q := fun u : ColExc r (n + 1) => ‖u‖ ^ 2) (by fun_prop) (by unfold cdot tdot wdot; fun_prop) (fun u => sq_nonneg _)
      (fun u hu => norm_eq_zero.1 (pow_eq_zero_iff two_ne_zero |>.1 hu)) (fun c u => ?_) (fun c u => ?_)
    · beta_reduce
      rw [norm_smul, mul_pow, Real.norm_eq_abs, sq_abs]
    · rw [cdot_scale]; ring
  have hκ : ∀ j : Fin p, 0 < P.v * tH / (P.L * P.EBED) := fun j => (plain_consts h hC hQ j).2.2.2.2
  choose K hK hKb using hb
  refine ⟨1 + ∑ j, K j / (P.v * tH / (P.L * P.EBED)), ?_, fun ε T cin cin' y y' hT hcc hcc' hc hc' hy hy' h0 h0' hε j => ?_⟩
  · have : 0 ≤ ∑ j, K j / (P.v * tH / (P.L * P.EBED)) := Finset.sum_nonneg fun j _ => (div_pos (hK j) (hκ j)).le
    linarith
  · obtain ⟨ha, hβ, hf, hμ, hκ'⟩ := plain_consts h hC hQ j
    have hε0 : 0 ≤ ε := (abs_nonneg _).trans (hε.2 0 0 0)
    have hbal := col_balance h.grid hG hP ha hβ hf hμ hκ' hT (d := fun t => cin t j.succ - cin' t j.succ)
      ((continuousOn_pi.1 hcc j.succ).sub (continuousOn_pi.1 hcc' j.succ)) (plain_drive h hA hC hQ j hc hc' hy hy' h0 h0')
    have hn : ‖diffExc j (y 0) (y' 0)‖ ≤ ε := by
      refine (pi_norm_le_iff_of_nonneg hε0).2 fun w => (norm_prod_le_iff.2 ⟨(pi_norm_le_iff_of_nonneg hε0).2 fun k => ?_, ?_⟩)
      · exact hε.2 k j.succ w.succ
      · exact hε.1 j.succ w.succ (Fin.succ_ne_zero w)
    have h1 := (hKb j (diffExc j (y 0) (y' 0))).trans (mul_le_mul_of_nonneg_left (pow_le_pow_left₀ (norm_nonneg _) hn 2) (hK j).le)
    have h2 := (cdot_pos h.grid hG ha hμ (diffExc j (y T) (y' T))).1
    have h3 : K j / (P.v * tH / (P.L * P.EBED)) ≤ 1 + ∑ j, K j / (P.v * tH / (P.L * P.EBED)) := by
      have := Finset.single_le_sum (f := fun j => K j / (P.v * tH / (P.L * P.EBED))) (fun j _ => (div_pos (hK j) (hκ j)).le) (Finset.mem_univ j)
      linarith
    have h4 := mul_le_mul_of_nonneg_right h3 (sq_nonneg ε)
    have h5 : P.v * tH / (P.L * P.EBED) * (∫ t in (0 : ℝ)..T, (diffExc j (y t) (y' t) (Fin.last n)).2 ^ 2) ≤ P.v * tH / (P.L * P.EBED) *
        ((∫ t in (0 : ℝ)..T, (cin t j.succ - cin' t j.succ) ^ 2) + K j / (P.v * tH / (P.L * P.EBED)) * ε ^ 2) := by
      have e : P.v * tH / (P.L * P.EBED) * (K j / (P.v * tH / (P.L * P.EBED)) * ε ^ 2) = K j * ε ^ 2 := by
        rw [← mul_assoc, mul_div_cancel₀ _ hκ'.ne']
      rw [mul_add, e]
      linarith
    have h6 := le_of_mul_le_mul_left h5 hκ'
    refine le_trans (le_of_eq ?_) (h6.trans (add_le_add le_rfl h4))
    rfl

/-- C280. So a column exhausted by a water `c` evens out an influent that wavers around it: the square of the excess of the effluent, added up to any
time, is at most that of the influent. -/
theorem c280_around (h : Spec.PlainColumn m P jac tH) {leg : Fin n → ℝ} (hleg : Spec.ShJacobiRoots n 1 1 leg)
    (hz : P.Az = aMat (axialNodes leg)) {c : Fin (p + 1) → ℝ} (hC : 0 < ∑ i, c i) (hQ : 0 < Q) {T : ℝ} (hT : 0 ≤ T) {cin : ℝ → Fin (p + 1) → ℝ}
    (hcc : ContinuousOn cin (Icc 0 T)) (hc : ∀ t ∈ Icc 0 T, ∑ i, cin t i = ∑ i, c i) {y : ℝ → ColState r p (n + 1)}
    (hy : Spec.Solves colComp (fun t u => m.rhs P tH (cin t) u) 0 T y) (h0 : Spec.Within c Q 0 (y 0)) (j : Fin p) :
    ∫ t in (0 : ℝ)..T, (y t 0 j.succ (Fin.last (n + 1)) - c j.succ) ^ 2 ≤ ∫ t in (0 : ℝ)..T, (cin t j.succ - c j.succ) ^ 2 := by
  have hA : Spec.MovesAll P.Az := axial_moves (by rw [hz]; exact .single hleg)
  obtain ⟨K, -, hK⟩ := c280_square h hleg hz hC hQ
  have hx := exhausted_totals (r := r) (z := n + 1) (Q := Q) hC
  have hn := within_near.1 h0
  have h0' : Spec.Totals (∑ i, c i) Q (y 0) := by
    have e1 : ∀ i w, w ≠ 0 → y 0 0 i w = (Spec.exhausted c Q : ColState r p (n + 1)) 0 i w := fun i w hw => by
      have := hn.1 i w hw
      rw [abs_nonpos_iff, sub_eq_zero] at this
      exact this
    have e2 : ∀ (k : Fin (r + 1)) i w, y 0 k.succ i w = (Spec.exhausted c Q : ColState r p (n + 1)) k.succ i w := fun k i w => by
      have := hn.2 k i w
      rw [abs_nonpos_iff, sub_eq_zero] at this
      exact this
    exact ⟨fun w hw => by simp only [e1 _ w hw]; exact hx.water w hw, fun k w => by simp only [e2]; exact hx.beads k w⟩
  have := hK 0 T cin (fun _ => c) y (fun _ => Spec.exhausted c Q) hT hcc continuousOn_const hc (fun _ _ => rfl) hy (fun t _ a => by
    beta_reduce
    rw [exhausted_rest h hA hC hQ]
    exact hasDerivWithinAt_const _ _ _) h0' hx hn j
  simpa [Spec.exhausted] using this

/-- Columns of both models and any numbers of nodes, exhausted by a water with three ions and then fed with one that wavers around it: over every time
the effluent wavers no more than the influent, and the influent does waver. -/
example (m : ColModel) (r n : ℕ) : ∃ (P : ColParams r 2 (n + 1)) (y : ℝ → ColState r 2 (n + 1)),
    (∀ T, Spec.Solves colComp (fun t u => m.rhs P 1 ![1, 2 + Real.sin t, 3 - Real.sin t] u) 0 T y) ∧
    ∀ T, 0 ≤ T → ∫ t in (0 : ℝ)..T, (y t 0 2 (Fin.last (n + 1)) - 3) ^ 2 ≤ ∫ t in (0 : ℝ)..T, Real.sin t ^ 2 := by
  obtain ⟨leg, hleg, -⟩ := legendre_exists n
  obtain ⟨jac, B, W, g⟩ := beadGrid_exists r
  let P : ColParams r 2 (n + 1) := ⟨1 / 2, 1, 1, 1, 5, 1 / 2, fun _ => 1, fun _ => 1, fun _ => 2, fun _ => 1, fun _ => 1, aMat (axialNodes leg), B, W⟩
  have hP : Spec.PlainColumn m P jac 1 := ⟨g, by show (0 : ℝ) < 1 / 2 ∧ (1 / 2 : ℝ) < 1; norm_num, ⟨one_pos, one_pos⟩, one_pos, one_pos,
    fun _ _ => ⟨one_pos, one_pos⟩, fun _ => ⟨by show (0 : ℝ) ≤ 1 / 2; norm_num, by show (1 / 2 : ℝ) < 1; norm_num,
      fun _ _ => by show (1 : ℝ) ≤ 2; norm_num⟩, fun _ => rfl, fun _ => by show (1 : ℕ) ≠ 2; decide⟩
  have hs : ∑ i, (![1, 2, 3] : Fin 3 → ℝ) i = 6 := by simp [Fin.sum_univ_three]; norm_num
  have hC : 0 < ∑ i, (![1, 2, 3] : Fin 3 → ℝ) i := by rw [hs]; norm_num
  have hQ : (0 : ℝ) < 5 := by norm_num
  let cin : ℝ → Fin 3 → ℝ := fun t => ![1, 2 + Real.sin t, 3 - Real.sin t]
  have hc : Continuous cin := by
    refine continuous_pi fun i => ?_
    fin_cases i
    · exact continuous_const
    · exact continuous_const.add Real.continuous_sin
    · exact continuous_const.sub Real.continuous_sin
  have hsum : ∀ t, ∑ i, cin t i = ∑ i, (![1, 2, 3] : Fin 3 → ℝ) i := by
    intro t
    rw [hs]
    simp [cin, Fin.sum_univ_three]
    ring
  obtain ⟨y, hy0, hy, -⟩ := c257_run hP (.single hleg) hC hQ hc hsum (exhausted_totals (r := r) (z := n + 1) (Q := 5) hC)
  refine ⟨P, y, hy, fun T hT => ?_⟩
  have := c280_around hP hleg rfl hC hQ hT hc.continuousOn (fun t _ => hsum t) (hy T)
    (by rw [hy0]; exact within_near.2 ⟨fun _ _ _ => by simp, fun _ _ _ => by simp⟩) 1
  simpa [cin] using this

end
end WTM
