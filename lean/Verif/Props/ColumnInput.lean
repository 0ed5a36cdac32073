import Verif.Lemmas.Duhamel
import Verif.Props.ColumnLimit

/-! Properties C267 and C268: how a column without selectivity answers to its influent. Errors of the influent are not amplified without
bound, an influent that settles exhausts the column, and columns in series hold up the sum of their time scales. -/
set_option autoImplicit false
namespace WTM
open BigOperators Set

section
variable {r p z : ℕ} {m : ColModel} {P : ColParams r p z} {jac : Fin r → ℝ} {tH : ℝ} {Q : ℝ}

/-- What an excess of the influent alone looks like in an exhausted column. -/
noncomputable def fullExc (a : ℝ) : ColExc r z := fun _ => (fun _ => 1 / a, 1)

/-- C267 for one ion and any axial operator with the energy of `AxialForm`. -/
theorem plain_answer_one (h : Spec.PlainColumn m P jac tH) (hA : Spec.MovesAll P.Az) {G : Fin z → Fin z → ℝ} (hG : AxialForm P.Az G)
    {CT : ℝ} (hC : 0 < CT) (hQ : 0 < Q) (j : Fin p) : ∃ C K ω : ℝ, 0 < C ∧ 0 < K ∧ 0 < ω ∧
      ∀ (ε δ T : ℝ) (cin cin' : ℝ → Fin (p + 1) → ℝ) (y y' : ℝ → ColState r p z),
      (∀ t ∈ Icc 0 T, ∑ i, cin t i = CT) → (∀ t ∈ Icc 0 T, ∑ i, cin' t i = CT) → (∀ t ∈ Icc 0 T, ∀ i, |cin t i - cin' t i| ≤ δ) →
      Spec.Solves colComp (fun t u => m.rhs P tH (cin t) u) 0 T y →
      Spec.Solves colComp (fun t u => m.rhs P tH (cin' t) u) 0 T y' → Spec.Totals CT Q (y 0) → Spec.Totals CT Q (y' 0) →
      Spec.ColNear ε (y 0) (y' 0) →
      ∀ t ∈ Icc 0 T, (∀ w : Fin z, |y t 0 j.succ w.succ - y' t 0 j.succ w.succ| ≤ C * Real.exp (-(ω * t)) * ε + K * δ) ∧
        ∀ (k : Fin (r + 1)) w, |y t k.succ j.succ w - y' t k.succ j.succ w| ≤ C * Real.exp (-(ω * t)) * ε + K * δ := by
  have ha : 0 < CT / Q := div_pos hC hQ
  have hb := h.size
  have hE1 : 0 < 1 - P.EBED := sub_pos.2 h.bed.2
  have hE0 := h.bed.1
  have htm := h.time
  have hv := h.flow.1
  have hL := h.flow.2
  have hμ : 0 < 3 * (1 - P.EBED) / P.EBED := by positivity
  have hκ : 0 < P.v * tH / (P.L * P.EBED) := by positivity
  have hi : j.succ ≠ 0 := Fin.succ_ne_zero j
  have hf : 0 < tH * P.kL j.succ / P.rb := by
    have := (h.rates j.succ hi).2
    positivity
  have hβ := plainBeta_pos h ha hi
  obtain ⟨C1, ω1, hC1, hω1, h1⟩ := column_settle h.grid hA hG ha hβ hf hμ hκ
  obtain ⟨C2, ω2, hC2, hω2, h2⟩ := inlet_settle h.grid ha hβ hf
  set M := colCL (CT / Q) (plainBeta m P tH (CT / Q) j.succ) (tH * P.kL j.succ / P.rb) (3 * (1 - P.EBED) / P.EBED)
    (P.v * tH / (P.L * P.EBED)) P.Az P.Br P.Wr with hM
  set M0 := inletCL (CT / Q) (plainBeta m P tH (CT / Q) j.succ) (tH * P.kL j.succ / P.rb) P.Br P.Wr with hM0
  set S : ColExc r z := fullExc (CT / Q) with hS
  set S0 : Fin (r + 1) → ℝ := fun _ => 1 / (CT / Q) with hS0
  set K1 := C1 * ‖M S‖ / ω1 with hK1
  set K2 := C2 * ‖M0 S0‖ / ω2 with hK2
  have hK1p : 0 ≤ K1 := by positivity
  have hK2p : 0 ≤ K2 := by positivity
  refine ⟨max C1 C2, max K1 K2 + 1, min ω1 ω2, lt_max_of_lt_left hC1, by positivity, lt_min hω1 hω2,
    fun ε δ T cin cin' y y' hc hc' hδ hy hy' h0 h0' hε t ht => ?_⟩
  have hst := totals_stay_var h hA hC hQ hc hy h0
  have hst' := totals_stay_var h hA hC hQ hc' hy' h0'
  have hset : ∀ (c : Fin (p + 1) → ℝ) (u : ColState r p z) (w : Fin z), setInlet u c 0 j.succ w.succ = u 0 j.succ w.succ := by
    intro c u w
    unfold setInlet
    rw [if_neg]
    rintro ⟨-, h⟩
    exact Fin.succ_ne_zero w h
  have hε0 : 0 ≤ ε := (abs_nonneg _).trans (hε.2 0 0 0)
  have hδ0 : 0 ≤ δ := (abs_nonneg _).trans (hδ 0 ⟨le_rfl, ht.1.trans ht.2⟩ 0)
  have ht0 := ht.1
  have e1 : C1 * Real.exp (-(ω1 * t)) * ε ≤ max C1 C2 * Real.exp (-(min ω1 ω2 * t)) * ε := by
    refine mul_le_mul_of_nonneg_right (mul_le_mul (le_max_left _ _) (Real.exp_le_exp.2 ?_) (Real.exp_pos _).le
      (le_max_of_le_left hC1.le)) hε0
    exact neg_le_neg (mul_le_mul_of_nonneg_right (min_le_left _ _) ht0)
  have e2 : C2 * Real.exp (-(ω2 * t)) * ε ≤ max C1 C2 * Real.exp (-(min ω1 ω2 * t)) * ε := by
    refine mul_le_mul_of_nonneg_right (mul_le_mul (le_max_right _ _) (Real.exp_le_exp.2 ?_) (Real.exp_pos _).le
      (le_max_of_le_left hC1.le)) hε0
    exact neg_le_neg (mul_le_mul_of_nonneg_right (min_le_right _ _) ht0)
  have k1 : C1 * (δ * ‖M S‖) / ω1 ≤ (max K1 K2 + 1) * δ := by
    have e : C1 * (δ * ‖M S‖) / ω1 = K1 * δ := by rw [hK1]; ring
    rw [e]
    exact mul_le_mul_of_nonneg_right (by linarith [le_max_left K1 K2]) hδ0
  have k2 : C2 * (δ * ‖M0 S0‖) / ω2 ≤ (max K1 K2 + 1) * δ := by
    have e : C2 * (δ * ‖M0 S0‖) / ω2 = K2 * δ := by rw [hK2]; ring
    rw [e]
    exact mul_le_mul_of_nonneg_right (by linarith [le_max_right K1 K2]) hδ0
  let D : ℝ → ColExc r z := fun t w => (fun k => y t k.succ j.succ w.succ - y' t k.succ j.succ w.succ,
    y t 0 j.succ w.succ - y' t 0 j.succ w.succ)
  let D0 : ℝ → Fin (r + 1) → ℝ := fun t k => y t k.succ j.succ 0 - y' t k.succ j.succ 0
  let d : ℝ → ℝ := fun t => cin t j.succ - cin' t j.succ
  have hrate : ∀ s ∈ Icc 0 T,
      (fun w : Fin z => ((fun k => m.rhs P tH (cin s) (y s) k.succ j.succ w.succ - m.rhs P tH (cin' s) (y' s) k.succ j.succ w.succ :
        Fin (r + 1) → ℝ), m.rhs P tH (cin s) (y s) 0 j.succ w.succ - m.rhs P tH (cin' s) (y' s) 0 j.succ w.succ)) =
      M (D s) + -(d s • M S) ∧
      (fun k => m.rhs P tH (cin s) (y s) k.succ j.succ 0 - m.rhs P tH (cin' s) (y' s) k.succ j.succ 0 : Fin (r + 1) → ℝ) =
      M0 (D0 s) + -(d s • M0 S0) := by
    intro s hs
    have hcs := hc s hs
    have hcs' := hc' s hs
    have a1 := plain_rates h hA (cin := cin s) (by rw [hcs]; exact hC) hQ (by rw [hcs]; exact hst s hs) hi
    have a2 := plain_rates h hA (cin := cin' s) (by rw [hcs']; exact hC) hQ (by rw [hcs']; exact hst' s hs) hi
    rw [hcs, ← hM, ← hM0] at a1
    rw [hcs', ← hM, ← hM0] at a2
    have d1 : D s - d s • S = (fun w : Fin z => excAt (cin s) Q j.succ (y s) w.succ) - fun w : Fin z => excAt (cin' s) Q j.succ (y' s) w.succ := by
      funext w
      refine Prod.ext (funext fun k => ?_) ?_
      · show (y s k.succ j.succ w.succ - y' s k.succ j.succ w.succ) - (cin s j.succ - cin' s j.succ) * (1 / (CT / Q)) =
          (y s k.succ j.succ w.succ - Q * cin s j.succ / ∑ j, cin s j) - (y' s k.succ j.succ w.succ - Q * cin' s j.succ / ∑ j, cin' s j)
        rw [hcs, hcs']
        field_simp
        ring
      · show (y s 0 j.succ w.succ - y' s 0 j.succ w.succ) - (cin s j.succ - cin' s j.succ) * 1 =
          (setInlet (y s) (cin s) 0 j.succ w.succ - cin s j.succ) - (setInlet (y' s) (cin' s) 0 j.succ w.succ - cin' s j.succ)
        simp only [hset]
        ring
    have d2 : D0 s - d s • S0 = (excAt (cin s) Q j.succ (y s) 0).1 - (excAt (cin' s) Q j.succ (y' s) 0).1 := by
      funext k
      show (y s k.succ j.succ 0 - y' s k.succ j.succ 0) - (cin s j.succ - cin' s j.succ) * (1 / (CT / Q)) =
          (y s k.succ j.succ 0 - Q * cin s j.succ / ∑ j, cin s j) - (y' s k.succ j.succ 0 - Q * cin' s j.succ / ∑ j, cin' s j)
      rw [hcs, hcs']
      field_simp
      ring
    rw [← sub_eq_add_neg, ← sub_eq_add_neg, ← map_smul, ← map_smul, ← map_sub, ← map_sub, d1, d2, map_sub, map_sub,
      ← a1.1, ← a2.1, ← a1.2, ← a2.2]
    exact ⟨rfl, rfl⟩
  have hpush : ∀ (v : ℝ), ∀ s ∈ Icc 0 T, 0 ≤ v → |d s| * v ≤ δ * v := fun v s hs hv => mul_le_mul_of_nonneg_right (hδ s hs _) hv
  have d1 := pushed_settle hC1.le hω1 h1 (x := D) (b := fun s => -(d s • M S)) (β := δ * ‖M S‖) (fun s hs => by
    rw [← (hrate s hs).1]
    refine hasDerivWithinAt_pi.2 fun w => ?_
    refine HasDerivWithinAt.prodMk (hasDerivWithinAt_pi.2 fun k => ?_) ?_
    · exact (hy s hs (k.succ, j.succ, w.succ)).sub (hy' s hs (k.succ, j.succ, w.succ))
    · exact (hy s hs (0, j.succ, w.succ)).sub (hy' s hs (0, j.succ, w.succ))) (fun s hs => by
      rw [norm_neg, norm_smul, Real.norm_eq_abs]
      exact hpush _ s hs (norm_nonneg _)) t ht
  have d2 := pushed_settle hC2.le hω2 h2 (x := D0) (b := fun s => -(d s • M0 S0)) (β := δ * ‖M0 S0‖) (fun s hs => by
    rw [← (hrate s hs).2]
    exact hasDerivWithinAt_pi.2 fun k => (hy s hs (k.succ, j.succ, 0)).sub (hy' s hs (k.succ, j.succ, 0))) (fun s hs => by
      rw [norm_neg, norm_smul, Real.norm_eq_abs]
      exact hpush _ s hs (norm_nonneg _)) t ht
  have n1 : ‖D 0‖ ≤ ε := by
    refine (pi_norm_le_iff_of_nonneg hε0).2 fun w => (norm_prod_le_iff.2 ⟨(pi_norm_le_iff_of_nonneg hε0).2 fun k => ?_, ?_⟩)
    · exact hε.2 k j.succ w.succ
    · exact hε.1 j.succ w.succ (Fin.succ_ne_zero w)
  have n2 : ‖D0 0‖ ≤ ε := (pi_norm_le_iff_of_nonneg hε0).2 fun k => hε.2 k j.succ 0
  have b1 := d1.trans (add_le_add ((mul_le_mul_of_nonneg_left n1 (by positivity)).trans e1) k1)
  have b2 := d2.trans (add_le_add ((mul_le_mul_of_nonneg_left n2 (by positivity)).trans e2) k2)
  have c1 : ∀ w : Fin z, ‖D t w‖ ≤ _ := fun w => (norm_le_pi_norm (D t) w).trans b1
  refine ⟨fun w => (norm_snd_le _).trans (c1 w), fun k w => ?_⟩
  refine Fin.cases ?_ (fun w => ?_) w
  · exact (norm_le_pi_norm (D0 t) k).trans b2
  · exact (norm_le_pi_norm (D t w).1 k).trans ((norm_fst_le _).trans (c1 w))

/-- C267. What comes out answers to what goes in with bounded gain: two runs under influents of one total that never differ by more than
`δ` approach each other exponentially up to `K * δ`, with constants of the column and the totals alone. -/
theorem c267_gain (h : Spec.PlainColumn m P jac tH) (hz : Spec.AxialGrid z P.Az) {CT : ℝ} (hC : 0 < CT) (hQ : 0 < Q) :
    ∃ C K ω : ℝ, 0 < C ∧ 0 < K ∧ 0 < ω ∧ ∀ (ε δ T : ℝ) (cin cin' : ℝ → Fin (p + 1) → ℝ) (y y' : ℝ → ColState r p z),
      (∀ t ∈ Icc 0 T, ∑ i, cin t i = CT) → (∀ t ∈ Icc 0 T, ∑ i, cin' t i = CT) → (∀ t ∈ Icc 0 T, ∀ i, |cin t i - cin' t i| ≤ δ) →
      Spec.Solves colComp (fun t u => m.rhs P tH (cin t) u) 0 T y →
      Spec.Solves colComp (fun t u => m.rhs P tH (cin' t) u) 0 T y' → Spec.Totals CT Q (y 0) → Spec.Totals CT Q (y' 0) →
      Spec.ColNear ε (y 0) (y' 0) → ∀ t ∈ Icc 0 T, Spec.ColNear (C * Real.exp (-(ω * t)) * ε + K * δ) (y t) (y' t) := by
  have hA := axial_moves hz
  obtain ⟨G, hG⟩ := axial_form hz
  have hone := fun j : Fin p => plain_answer_one h hA hG hC hQ j
  choose C K ω hCp hKp hωp hx using hone
  obtain ⟨ωm, hωm, hωle⟩ : ∃ ωm : ℝ, 0 < ωm ∧ ∀ j, ωm ≤ ω j := by
    rcases isEmpty_or_nonempty (Fin p) with he | he
    · exact ⟨1, one_pos, fun j => he.elim j⟩
    · obtain ⟨j0, hj0⟩ := Finite.exists_min ω
      exact ⟨ω j0, hωp j0, hj0⟩
  set S : ℝ := 1 + ∑ j, C j with hS
  set R : ℝ := 1 + ∑ j, K j with hR
  have hSp : 0 < S := add_pos_of_pos_of_nonneg one_pos (Finset.sum_nonneg fun j _ => (hCp j).le)
  have hRp : 0 < R := add_pos_of_pos_of_nonneg one_pos (Finset.sum_nonneg fun j _ => (hKp j).le)
  refine ⟨S, R, ωm, hSp, hRp, hωm, fun ε δ T cin cin' y y' hc hc' hδ hy hy' h0 h0' hε t ht => ?_⟩
  have hst := totals_stay_var h hA hC hQ hc hy h0 t ht
  have hst' := totals_stay_var h hA hC hQ hc' hy' h0' t ht
  have hε0 : 0 ≤ ε := (abs_nonneg _).trans (hε.2 0 0 0)
  have hδ0 : 0 ≤ δ := (abs_nonneg _).trans (hδ 0 ⟨le_rfl, ht.1.trans ht.2⟩ 0)
  have hle : ∀ j, C j * Real.exp (-(ω j * t)) * ε + K j * δ ≤ C j * (Real.exp (-(ωm * t)) * ε) + K j * δ := by
    intro j
    rw [mul_assoc]
    refine add_le_add_left (mul_le_mul_of_nonneg_left (mul_le_mul_of_nonneg_right (Real.exp_le_exp.2 ?_) hε0) (hCp j).le) _
    exact neg_le_neg (mul_le_mul_of_nonneg_right (hωle j) ht.1)
  have hE' : 0 ≤ Real.exp (-(ωm * t)) * ε := mul_nonneg (Real.exp_pos _).le hε0
  have hsum : ∑ j, (C j * (Real.exp (-(ωm * t)) * ε) + K j * δ) ≤ S * Real.exp (-(ωm * t)) * ε + R * δ := by
    rw [Finset.sum_add_distrib, ← Finset.sum_mul, ← Finset.sum_mul, mul_assoc]
    exact add_le_add (mul_le_mul_of_nonneg_right (by rw [hS]; linarith) hE') (mul_le_mul_of_nonneg_right (by rw [hR]; linarith) hδ0)
  have hj : ∀ j, C j * (Real.exp (-(ωm * t)) * ε) + K j * δ ≤ S * Real.exp (-(ωm * t)) * ε + R * δ := fun j =>
    (Finset.single_le_sum (f := fun j => C j * (Real.exp (-(ωm * t)) * ε) + K j * δ)
      (fun j _ => add_nonneg (mul_nonneg (hCp j).le hE') (mul_nonneg (hKp j).le hδ0)) (Finset.mem_univ j)).trans hsum
  have hall : ∀ {F e : Fin (p + 1) → ℝ}, ∑ i, F i = ∑ i, e i →
      (∀ j : Fin p, |F j.succ - e j.succ| ≤ C j * (Real.exp (-(ωm * t)) * ε) + K j * δ) →
      ∀ i, |F i - e i| ≤ S * Real.exp (-(ωm * t)) * ε + R * δ := by
    intro F e hFe hF i
    refine Fin.cases ?_ (fun j => (hF j).trans (hj j)) i
    have : F 0 - e 0 = -∑ j : Fin p, (F j.succ - e j.succ) := by
      rw [Finset.sum_sub_distrib]
      rw [Fin.sum_univ_succ, Fin.sum_univ_succ] at hFe
      linarith
    rw [this, abs_neg]
    exact (Finset.abs_sum_le_sum_abs _ _).trans ((Finset.sum_le_sum fun j _ => hF j).trans hsum)
  refine ⟨fun i w hw => ?_, fun k i w => ?_⟩
  · obtain ⟨w', rfl⟩ := Fin.exists_succ_eq.2 hw
    exact hall (F := fun i => y t 0 i w'.succ) (e := fun i => y' t 0 i w'.succ) (by rw [hst.water _ hw, hst'.water _ hw])
      (fun j => ((hx j ε δ T cin cin' y y' hc hc' hδ hy hy' h0 h0' hε t ht).1 w').trans (hle j)) i
  · exact hall (F := fun i => y t k.succ i w) (e := fun i => y' t k.succ i w) (by rw [hst.beads, hst'.beads])
      (fun j => ((hx j ε δ T cin cin' y y' hc hc' hδ hy hy' h0 h0' hε t ht).2 k w).trans (hle j)) i

/-- A run, seen from a later time. -/
theorem solves_shift {f : ℝ → ColState r p z → ColState r p z} {x : ℝ → ColState r p z} {T0 : ℝ} (hT : 0 ≤ T0)
    (hx : ∀ T, Spec.Solves colComp f 0 T x) (t : ℝ) : Spec.Solves colComp (fun s u => f (T0 + s) u) 0 t (fun s => x (T0 + s)) := by
  intro s hs a
  have h1 := hx (T0 + t) (T0 + s) ⟨by linarith [hs.1], by linarith [hs.2]⟩ a
  have h2 := h1.scomp s ((hasDerivAt_id s).const_add T0).hasDerivWithinAt (s := Icc 0 t)
    (fun τ hτ => ⟨by show 0 ≤ T0 + τ; linarith [hτ.1], by show T0 + τ ≤ T0 + t; linarith [hτ.2]⟩)
  rw [one_smul] at h2
  exact h2

/-- C267. An influent that settles, whatever its course before, exhausts the column: the effluent tends to the final influent and every
bead to the loading in equilibrium with it. -/
theorem c267_settles (h : Spec.PlainColumn m P jac tH) (hz : Spec.AxialGrid z P.Az) {CT : ℝ} (hC : 0 < CT) (hQ : 0 < Q)
    {cin : ℝ → Fin (p + 1) → ℝ} (hs : ∀ t, 0 ≤ t → ∑ i, cin t i = CT) {c : Fin (p + 1) → ℝ}
    (hc : ∀ i, Filter.Tendsto (fun t => cin t i) Filter.atTop (nhds (c i))) {y : ℝ → ColState r p z}
    (hy : ∀ T, Spec.Solves colComp (fun t u => m.rhs P tH (cin t) u) 0 T y) (h0 : Spec.Totals CT Q (y 0)) :
    (∀ i w, w ≠ 0 → Filter.Tendsto (fun t => y t 0 i w) Filter.atTop (nhds (c i))) ∧
      ∀ (k : Fin (r + 1)) i w, Filter.Tendsto (fun t => y t k.succ i w) Filter.atTop (nhds (Q * c i / CT)) := by
  have hA := axial_moves hz
  obtain ⟨C, K, ω, hCp, hKp, hω, hx⟩ := c267_gain (Q := Q) h hz hC hQ
  have hct : ∑ i, c i = CT := by
    have h1 : Filter.Tendsto (fun t => ∑ i, cin t i) Filter.atTop (nhds (∑ i, c i)) := tendsto_finsetSum _ fun i _ => hc i
    refine tendsto_nhds_unique h1 (tendsto_const_nhds.congr' ?_)
    filter_upwards [Filter.eventually_ge_atTop 0] with t ht
    exact (hs t ht).symm
  have hC' : 0 < ∑ i, c i := by rw [hct]; exact hC
  have hnear : ∀ η : ℝ, 0 < η → ∀ᶠ t in Filter.atTop, Spec.ColNear η (y t) (Spec.exhausted c Q) := by
    intro η hη
    have hδ : 0 < η / (2 * K) := by positivity
    have hev : ∀ᶠ t in Filter.atTop, ∀ i, |cin t i - c i| ≤ η / (2 * K) := by
      refine Filter.eventually_all.2 fun i => ?_
      filter_upwards [Metric.tendsto_nhds.1 (hc i) _ hδ] with t ht
      rw [Real.dist_eq] at ht
      exact ht.le
    obtain ⟨T1, hT1⟩ := Filter.eventually_atTop.1 hev
    set T0 := max 0 T1 with hT0
    have hT00 : 0 ≤ T0 := le_max_left _ _
    obtain ⟨ε, hε⟩ : ∃ ε, ∀ a i w, |y T0 a i w - (Spec.exhausted c Q : ColState r p z) a i w| ≤ ε := by
      obtain ⟨b, hb⟩ := Finite.exists_max fun a : Fin (r + 2) × Fin (p + 1) × Fin (z + 1) =>
        |y T0 a.1 a.2.1 a.2.2 - (Spec.exhausted c Q : ColState r p z) a.1 a.2.1 a.2.2|
      exact ⟨_, fun a i w => hb (a, i, w)⟩
    have hrest : ∀ T, Spec.Solves colComp (fun t u => m.rhs P tH ((fun _ => c) t) u) 0 T (fun _ => (Spec.exhausted c Q : ColState r p z)) := by
      intro T t _ a
      beta_reduce
      rw [exhausted_rest h hA hC' hQ]
      exact hasDerivWithinAt_const _ _ _
    have hrun : ∀ t, 0 ≤ t → Spec.ColNear (C * Real.exp (-(ω * t)) * ε + K * (η / (2 * K))) (y (T0 + t)) (Spec.exhausted c Q) := by
      intro t ht
      refine hx ε (η / (2 * K)) t (fun t => cin (T0 + t)) (fun _ => c) (fun t => y (T0 + t)) (fun _ => Spec.exhausted c Q)
        (fun s hs' => hs _ (by linarith [hs'.1])) (fun _ _ => hct) (fun s hs' i => ?_) (solves_shift hT00 hy t) (hrest t) ?_ ?_ ?_ t ⟨ht, le_rfl⟩
      · exact hT1 (T0 + s) (by linarith [hs'.1, le_max_right 0 T1]) i
      · rw [add_zero]
        exact totals_stay_var h hA hC hQ (fun t ht => hs t ht.1) (hy T0) h0 T0 ⟨hT00, le_rfl⟩
      · rw [← hct]; exact exhausted_totals hC'
      · rw [add_zero]
        exact ⟨fun i w _ => hε 0 i w, fun k i w => hε k.succ i w⟩
    have hlim : Filter.Tendsto (fun t => C * Real.exp (-(ω * (t - T0))) * ε) Filter.atTop (nhds 0) := by
      have h1 : Filter.Tendsto (fun t => ω * (t - T0)) Filter.atTop Filter.atTop :=
        (Filter.tendsto_atTop_add_const_right _ (-T0) Filter.tendsto_id).const_mul_atTop hω
      have h3 := ((Real.tendsto_exp_neg_atTop_nhds_zero.comp h1).const_mul C).mul_const ε
      simpa using h3
    filter_upwards [hlim.eventually_lt_const (half_pos hη), Filter.eventually_ge_atTop T0] with t h1 h2
    have h3 := hrun (t - T0) (by linarith)
    rw [show T0 + (t - T0) = t by ring] at h3
    have h4 : K * (η / (2 * K)) = η / 2 := by field_simp
    rw [h4] at h3
    exact ⟨fun i w hw => (h3.1 i w hw).trans (by linarith), fun k i w => (h3.2 k i w).trans (by linarith)⟩
  have key : ∀ (f : ℝ → ℝ) (l : ℝ), (∀ t η, Spec.ColNear η (y t) (Spec.exhausted c Q) → |f t - l| ≤ η) → Filter.Tendsto f Filter.atTop (nhds l) := by
    intro f l hf
    refine Metric.tendsto_nhds.2 fun η hη => ?_
    filter_upwards [hnear (η / 2) (half_pos hη)] with t ht
    rw [Real.dist_eq]
    linarith [hf t _ ht]
  refine ⟨fun i w hw => key _ _ fun t η hn => ?_, fun k i w => key _ _ fun t η hn => ?_⟩
  · simpa [Spec.exhausted] using hn.1 i w hw
  · have := hn.2 k i w
    simp only [Spec.exhausted, Fin.succ_ne_zero, if_false] at this
    rwa [hct] at this

/-- C268. Whatever the course of an influent that settles, what the column holds back of it in the end is what its own time scale
holds: of every ion not on the fresh resin the final influent times `t_half`, of the presaturant minus what the others bring. -/
theorem c268_area (h : Spec.PlainColumn m P jac tH) (hM : 2 ≤ z) (hz : Spec.AxialGrid z P.Az) (hQ : 0 < P.Q)
    {cin : ℝ → Fin (p + 1) → ℝ} {c : Fin (p + 1) → ℝ} (hC : 0 < ∑ i, c i) (hs : ∀ t, 0 ≤ t → ∑ i, cin t i = ∑ i, c i)
    (hc : ∀ i, Filter.Tendsto (fun t => cin t i) Filter.atTop (nhds (c i)))
    (hint : ∀ i T, 0 ≤ T → IntervalIntegrable (fun t => cin t i) MeasureTheory.volume 0 T) {y : ℝ → ColState r p z}
    (h0 : y 0 = colInit P.Q (cin 0) none) (hy : ∀ T, Spec.Solves colComp (fun t u => m.rhs P tH (cin t) u) 0 T y) (i : Fin (p + 1)) :
    Filter.Tendsto (fun T => ∫ t in (0 : ℝ)..T, (cin t i - y t 0 i (Fin.last z))) Filter.atTop
      (nhds (tHalf P c / tH * if i = 0 then c 0 - ∑ j, c j else c i)) := by
  have e0 := hs 0 le_rfl
  have htot : Spec.Totals (∑ i, c i) P.Q (y 0) := by
    rw [h0, ← e0]
    exact ⟨fun w _ => (c33_column P.Q (cin 0)).2.1 w, (c33_column P.Q (cin 0)).1⟩
  obtain ⟨hlq, hbd⟩ := c267_settles h hz hC hQ hs hc hy htot
  obtain ⟨g, hgi, hsum, hgt⟩ := axial_mean hz hM
  have hW := (h.grid.wpos (Fin.last r)).ne'
  have hE := h.bed.1.ne'
  have hLp := h.flow.2.ne'
  have hv := h.flow.1.ne'
  have htH := h.time.ne'
  have hC0 := hC.ne'
  have hW3 : ∑ k, P.Wr k = 1 / 3 := by
    rw [h.grid.weights]
    exact (c17_positive_sum (Nat.succ_pos r) (radialNodes_inj h.grid.zeros.1 (fun i => (h.grid.zeros.2.1 i).2))
      (radialNodes_pos (fun i => (h.grid.zeros.2.1 i).1)) (by norm_num : (0:ℝ) < 3)).2
  have hbal : ∀ T, 0 ≤ T → ∫ t in (0 : ℝ)..T, (cin t i - y t 0 i (Fin.last z)) =
      P.L / (P.v * tH) * (Spec.colContent P.EBED P.Wr g (y T) i - Spec.colContent P.EBED P.Wr g (y 0) i) := by
    intro T hT
    have hco : IntervalIntegrable (fun t => y t 0 i (Fin.last z)) MeasureTheory.volume 0 T := by
      apply ContinuousOn.intervalIntegrable
      rw [Set.uIcc_of_le hT]
      exact solves_continuousOn (hy T) (0, i, Fin.last z)
    have := c155_solutions m P (by omega) tH cin hW hE hgi hgt i hT (hy T) (hint i T hT)
    rw [this, intervalIntegral.integral_sub (hint i T hT) hco]
    field_simp
  have hlim : Filter.Tendsto (fun T => Spec.colContent P.EBED P.Wr g (y T) i) Filter.atTop
      (nhds (∑ w, g w * (P.EBED * c i + (1 - P.EBED) * (3 * ∑ k : Fin (r + 1), P.Wr k * (P.Q * c i / ∑ j, c j))))) := by
    unfold Spec.colContent
    refine tendsto_finsetSum _ fun w _ => ?_
    by_cases hw : w = 0
    · rw [hw, hgi]
      simp only [zero_mul]
      exact tendsto_const_nhds
    · refine ((((hlq i w hw).const_mul P.EBED).add ?_).const_mul (g w))
      refine ((tendsto_finsetSum _ fun k _ => (hbd k i w).const_mul (P.Wr k)).const_mul 3).const_mul _
  have hend : ∑ w, g w * (P.EBED * c i + (1 - P.EBED) * (3 * ∑ k : Fin (r + 1), P.Wr k * (P.Q * c i / ∑ j, c j))) =
      (P.EBED + (1 - P.EBED) * P.Q / ∑ j, c j) * c i := by
    rw [← Finset.sum_mul, hsum, ← Finset.sum_mul, hW3]
    ring
  have hstart : Spec.colContent P.EBED P.Wr g (y 0) i =
      (P.EBED + (1 - P.EBED) * P.Q / ∑ j, c j) * (if i = 0 then ∑ j, c j else 0) := by
    rw [h0]
    unfold Spec.colContent
    have : ∀ w, g w * (P.EBED * (colInit P.Q (cin 0) none : ColState r p z) 0 i w +
        (1 - P.EBED) * (3 * ∑ k : Fin (r + 1), P.Wr k * (colInit P.Q (cin 0) none : ColState r p z) k.succ i w)) =
        g w * ((P.EBED + (1 - P.EBED) * P.Q / ∑ j, c j) * (if i = 0 then ∑ j, c j else 0)) := by
      intro w
      by_cases hw : w = 0
      · rw [hw, hgi]; ring
      · simp only [colInit, Fin.succ_ne_zero, if_true, if_false, if_neg hw]
        rw [← Finset.sum_mul, hW3, e0]
        split
        · field_simp
        · ring
    simp only [this]
    rw [← Finset.sum_mul, hsum, one_mul]
  rw [hend] at hlim
  have hfin := (hlim.sub_const (Spec.colContent P.EBED P.Wr g (y 0) i)).const_mul (P.L / (P.v * tH))
  have hkey : P.L / (P.v * tH) * ((P.EBED + (1 - P.EBED) * P.Q / ∑ j, c j) * c i - Spec.colContent P.EBED P.Wr g (y 0) i) =
      tHalf P c / tH * if i = 0 then c 0 - ∑ j, c j else c i := by
    have ht : P.L * (P.EBED + (1 - P.EBED) * P.Q / ∑ j, c j) = P.v * tHalf P c := by
      unfold tHalf
      simp only
      field_simp
    have e : P.L / (P.v * tH) * ((P.EBED + (1 - P.EBED) * P.Q / ∑ j, c j) * c i - Spec.colContent P.EBED P.Wr g (y 0) i) =
        P.L * (P.EBED + (1 - P.EBED) * P.Q / ∑ j, c j) / (P.v * tH) * (c i - (if i = 0 then ∑ j, c j else 0)) := by
      rw [hstart]; ring
    rw [e, ht, mul_div_mul_left _ _ hv]
    split
    · rename_i hi; rw [hi]
    · rw [sub_zero]
  rw [hkey] at hfin
  refine hfin.congr' ?_
  filter_upwards [Filter.eventually_ge_atTop 0] with T hT
  rw [hbal T hT]

end

/-- Specification: columns in series, in one clock `tH`. Column `n` has its own size, resin, grids and model; the first is fed with `cin`,
every other one with what leaves the one before. All start fresh. -/
structure Spec.Train {p : ℕ} (tH : ℝ) (cin : ℝ → Fin (p + 1) → ℝ) (r z : ℕ → ℕ) (m : ℕ → ColModel) (P : ∀ n, ColParams (r n) p (z n))
    (feed : ℕ → ℝ → Fin (p + 1) → ℝ) (y : ∀ n, ℝ → ColState (r n) p (z n)) : Prop where
  column : ∀ n, ∃ jac, Spec.PlainColumn (m n) (P n) jac tH
  nodes : ∀ n, 2 ≤ z n ∧ Spec.AxialGrid (z n) (P n).Az
  resin : ∀ n, 0 < (P n).Q
  first : ∀ t, 0 ≤ t → feed 0 t = cin t
  next : ∀ n t, 0 ≤ t → ∀ i, feed (n + 1) t i = y n t 0 i (Fin.last (z n))
  fresh : ∀ n, y n 0 = colInit (P n).Q (feed n 0) none
  runs : ∀ n T, Spec.Solves colComp (fun t u => (m n).rhs (P n) tH (feed n t) u) 0 T (y n)

section
variable {p : ℕ} {tH : ℝ} {cin : ℝ → Fin (p + 1) → ℝ} {c : Fin (p + 1) → ℝ} {r z : ℕ → ℕ} {m : ℕ → ColModel}
  {P : ∀ n, ColParams (r n) p (z n)} {feed : ℕ → ℝ → Fin (p + 1) → ℝ} {y : ∀ n, ℝ → ColState (r n) p (z n)}

/-- C268. Columns in series, any number of them and each with its own size, resin and grids: when the influent settles, every effluent
tends to it, and what the first `n + 1` columns together hold up is the sum of their time scales. -/
theorem c268_train (h : Spec.Train tH cin r z m P feed y) (hC : 0 < ∑ i, c i) (hs : ∀ t, 0 ≤ t → ∑ i, cin t i = ∑ i, c i)
    (hc : ∀ i, Filter.Tendsto (fun t => cin t i) Filter.atTop (nhds (c i)))
    (hint : ∀ i T, 0 ≤ T → IntervalIntegrable (fun t => cin t i) MeasureTheory.volume 0 T) (n : ℕ) (i : Fin (p + 1)) :
    Filter.Tendsto (fun t => y n t 0 i (Fin.last (z n))) Filter.atTop (nhds (c i)) ∧
    Filter.Tendsto (fun T => ∫ t in (0 : ℝ)..T, (cin t i - y n t 0 i (Fin.last (z n)))) Filter.atTop
      (nhds ((∑ k ∈ Finset.range (n + 1), tHalf (P k) c) / tH * if i = 0 then c 0 - ∑ j, c j else c i)) := by
  have hlast : ∀ n, Fin.last (z n) ≠ 0 := fun n e => by
    have h1 := congrArg Fin.val e
    have h2 := (h.nodes n).1
    simp at h1
    omega
  have hcong : ∀ {f g : ℝ → ℝ}, (∀ t, 0 ≤ t → f t = g t) → (∀ T, 0 ≤ T → IntervalIntegrable f MeasureTheory.volume 0 T) →
      ∀ T, 0 ≤ T → IntervalIntegrable g MeasureTheory.volume 0 T := by
    intro f g hfg hf T hT
    refine (hf T hT).congr fun t ht => ?_
    rw [Set.uIoc_of_le hT] at ht
    exact hfg t ht.1.le
  have hout : ∀ n i T, 0 ≤ T → IntervalIntegrable (fun t => y n t 0 i (Fin.last (z n))) MeasureTheory.volume 0 T := by
    intro n i T hT
    apply ContinuousOn.intervalIntegrable
    rw [Set.uIcc_of_le hT]
    exact solves_continuousOn (h.runs n T) (0, i, Fin.last (z n))
  -- what a column gets
  have hfeed : ∀ n, (∀ t, 0 ≤ t → ∑ i, feed n t i = ∑ i, c i) ∧ (∀ i, Filter.Tendsto (fun t => feed n t i) Filter.atTop (nhds (c i))) ∧
      (∀ i T, 0 ≤ T → IntervalIntegrable (fun t => feed n t i) MeasureTheory.volume 0 T) ∧
      ∀ i, Filter.Tendsto (fun T => ∫ t in (0 : ℝ)..T, (cin t i - feed n t i)) Filter.atTop
        (nhds ((∑ k ∈ Finset.range n, tHalf (P k) c) / tH * if i = 0 then c 0 - ∑ j, c j else c i)) := by
    intro n
    induction n with
    | zero =>
      refine ⟨fun t ht => by rw [h.first t ht]; exact hs t ht, fun i => ?_, fun i => hcong (fun t ht => by rw [h.first t ht]) (hint i), fun i => ?_⟩
      · refine (hc i).congr' ?_
        filter_upwards [Filter.eventually_ge_atTop 0] with t ht
        rw [h.first t ht]
      · rw [Finset.sum_range_zero, zero_div, zero_mul]
        refine tendsto_const_nhds.congr' ?_
        filter_upwards [Filter.eventually_ge_atTop 0] with T hT
        rw [intervalIntegral.integral_congr (g := fun _ => (0 : ℝ))]
        · simp
        · intro t ht
          rw [Set.uIcc_of_le hT] at ht
          simp only [h.first t ht.1, sub_self]
    | succ n ih =>
      obtain ⟨h1, h2, h3, h4⟩ := ih
      obtain ⟨jac, hcol⟩ := h.column n
      have htot : Spec.Totals (∑ i, c i) (P n).Q (y n 0) := by
        rw [h.fresh n, ← h1 0 le_rfl]
        exact ⟨fun w _ => (c33_column (P n).Q (feed n 0)).2.1 w, (c33_column (P n).Q (feed n 0)).1⟩
      have hset := c267_settles hcol (h.nodes n).2 hC (h.resin n) h1 h2 (h.runs n) htot
      refine ⟨fun t ht => ?_, fun i => ?_, fun i => hcong (fun t ht => (h.next n t ht i).symm) (hout n i), fun i => ?_⟩
      · simp only [h.next n t ht]
        exact (totals_stay_var hcol (axial_moves (h.nodes n).2) hC (h.resin n) (fun t ht => h1 t ht.1) (h.runs n t) htot t ⟨ht, le_rfl⟩).water _ (hlast n)
      · refine (hset.1 i _ (hlast n)).congr' ?_
        filter_upwards [Filter.eventually_ge_atTop 0] with t ht
        rw [h.next n t ht]
      · have ha := (h4 i).add (c268_area hcol (h.nodes n).1 (h.nodes n).2 (h.resin n) hC h1 h2 h3 (h.fresh n) (h.runs n) i)
        rw [← add_mul, ← add_div, ← Finset.sum_range_succ (fun k => tHalf (P k) c)] at ha
        refine ha.congr' ?_
        filter_upwards [Filter.eventually_ge_atTop 0] with T hT
        rw [← intervalIntegral.integral_add ((hint i T hT).sub (h3 i T hT)) ((h3 i T hT).sub (hout n i T hT))]
        refine intervalIntegral.integral_congr fun t ht => ?_
        rw [Set.uIcc_of_le hT] at ht
        simp only [h.next n t ht.1]
        ring
  obtain ⟨-, h2, -, h4⟩ := hfeed (n + 1)
  refine ⟨(h2 i).congr' ?_, (h4 i).congr' ?_⟩
  · filter_upwards [Filter.eventually_ge_atTop 0] with t ht
    rw [h.next n t ht]
  · filter_upwards [Filter.eventually_ge_atTop 0] with T hT
    refine intervalIntegral.integral_congr fun t ht => ?_
    rw [Set.uIcc_of_le hT] at ht
    simp only [h.next n t ht.1]

/-- C268. There is such a series of runs for every such columns and every continuous influent of one total. -/
theorem c268_exists {CT : ℝ} (hC : 0 < CT) (hcol : ∀ n, ∃ jac, Spec.PlainColumn (m n) (P n) jac tH)
    (hn : ∀ n, 2 ≤ z n ∧ Spec.AxialGrid (z n) (P n).Az) (hQ : ∀ n, 0 < (P n).Q) (hc : Continuous cin) (hs : ∀ t, ∑ i, cin t i = CT) :
    ∃ feed y, Spec.Train tH cin r z m P feed y := by
  have hlast : ∀ n, Fin.last (z n) ≠ 0 := fun n e => by
    have h1 := congrArg Fin.val e
    have h2 := (hn n).1
    simp at h1
    omega
  let Feed := {f : ℝ → Fin (p + 1) → ℝ // Continuous f ∧ ∀ t, ∑ i, f t i = CT}
  have hstart : ∀ n (f : Feed), Spec.Totals CT (P n).Q (colInit (P n).Q (f.1 0) none : ColState (r n) p (z n)) := by
    intro n f
    exact ⟨fun w _ => ((c33_column (P n).Q (f.1 0)).2.1 w).trans (f.2.2 0), (c33_column (P n).Q (f.1 0)).1⟩
  have hrun : ∀ n (f : Feed), ∃ x : ℝ → ColState (r n) p (z n), x 0 = colInit (P n).Q (f.1 0) none ∧
      ∀ T, Spec.Solves colComp (fun t u => (m n).rhs (P n) tH (f.1 t) u) 0 T x := by
    intro n f
    obtain ⟨jac, hj⟩ := hcol n
    obtain ⟨x, hx0, hx, -⟩ := c257_run hj (hn n).2 hC (hQ n) f.2.1 f.2.2 (hstart n f)
    exact ⟨x, hx0, hx⟩
  choose x hx0 hx using hrun
  have hnext : ∀ n (f : Feed), (Continuous fun t i => x n f (max t 0) 0 i (Fin.last (z n))) ∧
      ∀ t, ∑ i, x n f (max t 0) 0 i (Fin.last (z n)) = CT := by
    intro n f
    obtain ⟨jac, hj⟩ := hcol n
    refine ⟨continuous_pi fun i => ?_, fun t => ?_⟩
    · have h1 : ContinuousOn (fun t => x n f t 0 i (Fin.last (z n))) (Ici 0) := by
        intro t ht
        have h2 := solves_continuousOn (hx n f (t + 1)) (0, i, Fin.last (z n)) t ⟨ht, by linarith⟩
        refine ContinuousWithinAt.mono_of_mem_nhdsWithin h2 ?_
        exact mem_nhdsWithin.2 ⟨Iio (t + 1), isOpen_Iio, by simp, fun s hs => ⟨hs.2, le_of_lt hs.1⟩⟩
      exact h1.comp_continuous (continuous_id.max continuous_const) fun t => Set.mem_Ici.2 (le_max_right _ _)
    · exact (totals_stay_var hj (axial_moves (hn n).2) hC (hQ n) (fun t _ => f.2.2 t) (hx n f (max t 0)) (by rw [hx0]; exact hstart n f)
        (max t 0) ⟨le_max_right _ _, le_rfl⟩).water _ (hlast n)
  let fd : ℕ → Feed := fun n => Nat.rec ⟨cin, hc, hs⟩ (fun n f => ⟨fun t i => x n f (max t 0) 0 i (Fin.last (z n)), hnext n f⟩) n
  refine ⟨fun n => (fd n).1, fun n => x n (fd n), hcol, hn, hQ, fun _ _ => rfl, fun n t ht i => ?_, fun n => hx0 n (fd n), fun n T => hx n (fd n) T⟩
  show x n (fd n) (max t 0) 0 i (Fin.last (z n)) = _
  rw [max_eq_left ht]

end

/-- Columns as in C267: two influents, one with a lasting ripple, and two runs. The effluents differ at all times by no more than a fixed
multiple of the ripple. -/
example (m : ColModel) (r z : ℕ) (A : Fin (z + 1) → Fin (z + 1) → ℝ) (hA : Spec.AxialGrid z A) : ∃ (P : ColParams r 2 z) (K : ℝ), 0 < K ∧
    ∀ δ, 0 ≤ δ → ∃ y y' : ℝ → ColState r 2 z, (∀ T, Spec.Solves colComp (fun _ u => m.rhs P 1 ![1, 2, 3] u) 0 T y) ∧
    (∀ T, Spec.Solves colComp (fun t u => m.rhs P 1 ![1, 2 + δ * Real.sin t, 3 - δ * Real.sin t] u) 0 T y') ∧ y 0 = y' 0 ∧
    ∀ t, 0 ≤ t → |y t 0 2 (Fin.last z) - y' t 0 2 (Fin.last z)| ≤ K * δ := by
  obtain ⟨jac, B, W, g⟩ := beadGrid_exists r
  have hlast : Fin.last z ≠ 0 := fun e => by have := congrArg Fin.val e; have := axial_pos hA; simp at *; omega
  let P : ColParams r 2 z := ⟨1 / 2, 1, 1, 1, 5, 1 / 2, fun _ => 1, fun _ => 1, fun _ => 2, fun _ => 1, fun _ => 1, A, B, W⟩
  have hP : Spec.PlainColumn m P jac 1 := ⟨g, by show (0 : ℝ) < 1 / 2 ∧ (1 / 2 : ℝ) < 1; norm_num, ⟨one_pos, one_pos⟩, one_pos, one_pos,
    fun _ _ => ⟨one_pos, one_pos⟩, fun _ => ⟨by show (0 : ℝ) ≤ 1 / 2; norm_num, by show (1 / 2 : ℝ) < 1; norm_num,
      fun _ _ => by show (1 : ℝ) ≤ 2; norm_num⟩, fun _ => rfl, fun _ => by show (1 : ℕ) ≠ 2; decide⟩
  have hs : ∑ i, (![1, 2, 3] : Fin 3 → ℝ) i = 6 := by simp [Fin.sum_univ_three]; norm_num
  have hQ : (0 : ℝ) < 5 := by norm_num
  have h6 : (0 : ℝ) < 6 := by norm_num
  have hu : Spec.Totals 6 5 (colInit 5 ![1, 2, 3] none : ColState r 2 z) := by
    rw [← hs]
    exact ⟨fun w _ => (c33_column 5 ![1, 2, 3]).2.1 w, (c33_column 5 ![1, 2, 3]).1⟩
  obtain ⟨C, K, ω, -, hK, -, hx⟩ := c267_gain (Q := 5) hP hA h6 hQ
  refine ⟨P, K, hK, fun δ hδ => ?_⟩
  let cin' : ℝ → Fin 3 → ℝ := fun t => ![1, 2 + δ * Real.sin t, 3 - δ * Real.sin t]
  have hc : Continuous cin' := by
    refine continuous_pi fun i => ?_
    fin_cases i
    · exact continuous_const
    · exact continuous_const.add (continuous_const.mul Real.continuous_sin)
    · exact continuous_const.sub (continuous_const.mul Real.continuous_sin)
  have hsum : ∀ t, ∑ i, cin' t i = 6 := by
    intro t
    simp [cin', Fin.sum_univ_three]
    ring
  obtain ⟨y, hy0, hy, -⟩ := c257_run (cin := fun _ => ![1, 2, 3]) hP hA h6 hQ continuous_const (fun _ => hs) hu
  obtain ⟨y', hy0', hy', -⟩ := c257_run hP hA h6 hQ hc hsum hu
  refine ⟨y, y', hy, hy', by rw [hy0, hy0'], fun t ht => ?_⟩
  have hsin : ∀ t, |δ * Real.sin t| ≤ δ := fun t => by
    rw [abs_mul, abs_of_nonneg hδ]
    exact mul_le_of_le_one_right hδ (Real.abs_sin_le_one t)
  have := (hx 0 δ t (fun _ => ![1, 2, 3]) cin' y y' (fun _ _ => hs) (fun s _ => hsum s) (fun s _ i => by
    fin_cases i
    · simpa [cin'] using hδ
    · simpa [cin'] using hsin s
    · simpa [cin'] using hsin s) (hy t) (hy' t) (by rw [hy0]; exact hu) (by rw [hy0']; exact hu)
    (by rw [hy0, hy0']; exact ⟨fun _ _ _ => by simp, fun _ _ _ => by simp⟩) t ⟨ht, le_rfl⟩).1 2 _ hlast
  simpa using this

/-- And as in C268: columns in series whose resins hold 5, 6, 7, …, both models in turn, fed with an influent that swings out. -/
example (r z : ℕ) (hM : 2 ≤ z) (A : Fin (z + 1) → Fin (z + 1) → ℝ) (hA : Spec.AxialGrid z A) : ∃ (P : ℕ → ColParams r 2 z)
    (feed : ℕ → ℝ → Fin 3 → ℝ) (y : ℕ → ℝ → ColState r 2 z),
    Spec.Train 1 (fun t => ![1, 2 + Real.exp (-t), 3 - Real.exp (-t)]) (fun _ => r) (fun _ => z) (fun n => if Even n then .hsdm else .psdm) P feed y ∧
    ∀ n : ℕ, Filter.Tendsto (fun T => ∫ t in (0 : ℝ)..T, (3 - Real.exp (-t) - y n t 0 2 (Fin.last z))) Filter.atTop
      (nhds ((∑ k ∈ Finset.range (n + 1), (1 / 2 * (1 + (5 + k) / 6)) : ℝ) * 3)) := by
  obtain ⟨jac, B, W, g⟩ := beadGrid_exists r
  let P : ℕ → ColParams r 2 z := fun n => ⟨1 / 2, 1, 1, 1, 5 + n, 1 / 2, fun _ => 1, fun _ => 1, fun _ => 2, fun _ => 1, fun _ => 1, A, B, W⟩
  have hP : ∀ n, ∃ jac, Spec.PlainColumn (if Even n then .hsdm else .psdm) (P n) jac 1 := fun n => ⟨jac, g,
    by show (0 : ℝ) < 1 / 2 ∧ (1 / 2 : ℝ) < 1; norm_num, ⟨one_pos, one_pos⟩, one_pos, one_pos,
    fun _ _ => ⟨one_pos, one_pos⟩, fun _ => ⟨by show (0 : ℝ) ≤ 1 / 2; norm_num, by show (1 / 2 : ℝ) < 1; norm_num,
      fun _ _ => by show (1 : ℝ) ≤ 2; norm_num⟩, fun _ => rfl, fun _ => by show (1 : ℕ) ≠ 2; decide⟩
  have hs : ∑ i, (![1, 2, 3] : Fin 3 → ℝ) i = 6 := by simp [Fin.sum_univ_three]; norm_num
  have h6 : (0 : ℝ) < 6 := by norm_num
  let cin : ℝ → Fin 3 → ℝ := fun t => ![1, 2 + Real.exp (-t), 3 - Real.exp (-t)]
  have he : Continuous fun t : ℝ => Real.exp (-t) := by fun_prop
  have hc : Continuous cin := by
    refine continuous_pi fun i => ?_
    fin_cases i
    · exact continuous_const
    · exact continuous_const.add he
    · exact continuous_const.sub he
  have hsum : ∀ t, ∑ i, cin t i = 6 := by
    intro t
    simp [cin, Fin.sum_univ_three]
    ring
  have hQ : ∀ n, 0 < (P n).Q := fun n => by show (0 : ℝ) < 5 + n; positivity
  obtain ⟨feed, y, hT⟩ := c268_exists (cin := cin) (P := P) h6 hP (fun _ => ⟨hM, hA⟩) hQ hc hsum
  refine ⟨P, feed, y, hT, fun n => ?_⟩
  have hlim : ∀ i, Filter.Tendsto (fun t => cin t i) Filter.atTop (nhds ((![1, 2, 3] : Fin 3 → ℝ) i)) := by
    have h1 := Real.tendsto_exp_neg_atTop_nhds_zero
    intro i
    fin_cases i
    · exact tendsto_const_nhds
    · simpa [cin] using h1.const_add 2
    · simpa [cin] using h1.const_sub 3
  have := (c268_train hT (c := ![1, 2, 3]) (by rw [hs]; exact h6) (fun t _ => by rw [hsum, hs]) hlim
    (fun i T _ => ((continuous_apply i).comp hc).intervalIntegrable _ _) n 2).2
  have ht : ∀ k, tHalf (P k) ![1, 2, 3] = 1 / 2 * (1 + (5 + k) / 6) := by
    intro k
    unfold tHalf
    rw [hs]
    show (1 : ℝ) * (1 / 2) / 1 * (1 + (1 - 1 / 2) / (1 / 2) * (5 + k) / 6) = _
    ring
  simp only [ht, div_one] at this
  simpa [cin] using this

end WTM
