import Verif.Props.ColumnInput

/-! Property C270: fed with a water that recurs, a column without selectivity falls into step with it. -/
set_option autoImplicit false
namespace WTM
open BigOperators Set

section
variable {r p z : ℕ} {m : ColModel} {P : ColParams r p z} {jac : Fin r → ℝ} {tH : ℝ} {Q : ℝ}

theorem colNear_exists (u v : ColState r p z) : ∃ ε, Spec.ColNear ε u v := by
  obtain ⟨b, hb⟩ := Finite.exists_max fun a : Fin (r + 2) × Fin (p + 1) × Fin (z + 1) => |u a.1 a.2.1 a.2.2 - v a.1 a.2.1 a.2.2|
  exact ⟨_, fun i w _ => hb (0, i, w), fun k i w => hb (k.succ, i, w)⟩

theorem ColNear.mono {ε ε' : ℝ} {u v : ColState r p z} (h : Spec.ColNear ε u v) (he : ε ≤ ε') : Spec.ColNear ε' u v :=
  ⟨fun i w hw => (h.1 i w hw).trans he, fun k i w => (h.2 k i w).trans he⟩

theorem ColNear.trans {ε ε' : ℝ} {u v x : ColState r p z} (h : Spec.ColNear ε u v) (h' : Spec.ColNear ε' v x) : Spec.ColNear (ε + ε') u x :=
  ⟨fun i w hw => (abs_sub_le _ _ _).trans (add_le_add (h.1 i w hw) (h'.1 i w hw)),
    fun k i w => (abs_sub_le _ _ _).trans (add_le_add (h.2 k i w) (h'.2 k i w))⟩

theorem ColNear.symm {ε : ℝ} {u v : ColState r p z} (h : Spec.ColNear ε u v) : Spec.ColNear ε v u :=
  ⟨fun i w hw => by rw [abs_sub_comm]; exact h.1 i w hw, fun k i w => by rw [abs_sub_comm]; exact h.2 k i w⟩

/-- The value the code keeps at the inlet does not change. -/
theorem inlet_const {cin : ℝ → Fin (p + 1) → ℝ} {y : ℝ → ColState r p z} (hy : ∀ T, Spec.Solves colComp (fun t u => m.rhs P tH (cin t) u) 0 T y)
    (i : Fin (p + 1)) {t : ℝ} (ht : 0 ≤ t) : y t 0 i 0 = y 0 0 i 0 := by
  have hd : ∀ s ∈ Icc 0 t, HasDerivWithinAt (fun s => y s 0 i 0) 0 (Icc 0 t) s := by
    intro s hs
    have := hy t s hs (0, i, 0)
    have e : colComp (0, i, 0) (m.rhs P tH (cin s) (y s)) = 0 := by
      show m.rhs P tH (cin s) (y s) 0 i 0 = 0
      simp only [rhs_eq, assemble_liq, if_true]
    beta_reduce at this
    rw [e] at this
    exact this
  exact constant_of_has_deriv_right_zero (fun s hs => (hd s hs).continuousWithinAt)
    (fun s hs => (hd s (Ico_subset_Icc_self hs)).mono_of_mem_nhdsWithin (Icc_mem_nhdsGE_of_mem hs)) t ⟨ht, le_rfl⟩

/-- C270. Under a water that recurs with period `τ` there is a run that recurs with the same period. -/
theorem c270_cycle (h : Spec.PlainColumn m P jac tH) (hz : Spec.AxialGrid z P.Az) {CT : ℝ} (hC : 0 < CT) (hQ : 0 < Q)
    {cin : ℝ → Fin (p + 1) → ℝ} (hc : Continuous cin) (hs : ∀ t, ∑ i, cin t i = CT) {τ : ℝ} (hτ : 0 < τ) (hper : ∀ t, cin (t + τ) = cin t) :
    ∃ Y : ℝ → ColState r p z, (∀ T, Spec.Solves colComp (fun t u => m.rhs P tH (cin t) u) 0 T Y) ∧ Spec.Totals CT Q (Y 0) ∧
      ∀ t, 0 ≤ t → Y (t + τ) = Y t := by
  have hA := axial_moves hz
  obtain ⟨C, ω, hCp, hω, hx⟩ := c257_forgets (Q := Q) h hz hC hQ
  have hu : Spec.Totals CT Q (colInit Q (cin 0) none : ColState r p z) :=
    ⟨fun w _ => ((c33_column Q (cin 0)).2.1 w).trans (hs 0), (c33_column Q (cin 0)).1⟩
  obtain ⟨y, hy0, hy, -⟩ := c257_run h hz hC hQ hc hs hu
  have htot : ∀ t, 0 ≤ t → Spec.Totals CT Q (y t) := fun t ht =>
    totals_stay_var h hA hC hQ (fun t _ => hs t) (hy t) (by rw [hy0]; exact hu) t ⟨ht, le_rfl⟩
  have hpern : ∀ (n : ℕ) t, cin (n * τ + t) = cin t := by
    intro n
    induction n with
    | zero => intro t; simp
    | succ n ih =>
      intro t
      rw [← ih t, ← hper (n * τ + t)]
      congr 1
      push_cast
      ring
  have hshift : ∀ {x : ℝ → ColState r p z}, (∀ T, Spec.Solves colComp (fun t u => m.rhs P tH (cin t) u) 0 T x) →
      ∀ (n : ℕ) T, Spec.Solves colComp (fun t u => m.rhs P tH (cin t) u) 0 T (fun t => x (n * τ + t)) := by
    intro x hx n T
    have := solves_shift (T0 := n * τ) (by positivity) hx T
    simp only [hpern] at this
    exact this
  have hnτ : ∀ n : ℕ, 0 ≤ (n : ℝ) * τ := fun n => by positivity
  -- one period later and later
  obtain ⟨ε, hε⟩ := colNear_exists (y 0) (y τ)
  have hstep : ∀ n : ℕ, Spec.ColNear (C * ε * Real.exp (-(ω * τ)) ^ n) (y (n * τ)) (y ((n + 1 : ℕ) * τ)) := by
    intro n
    have h1 := hshift hy 1
    simp only [Nat.cast_one, one_mul] at h1
    have := hx ε (n * τ) cin y (fun t => y (τ + t)) (fun t _ => hs t) (hy _) (h1 _) (htot 0 le_rfl)
      (by rw [add_zero]; exact htot τ hτ.le) (by rw [add_zero]; exact hε) (n * τ) ⟨hnτ n, le_rfl⟩
    rw [← Real.exp_nat_mul]
    have e1 : ((n + 1 : ℕ) : ℝ) * τ = τ + n * τ := by push_cast; ring
    have e2 : C * ε * Real.exp ((n : ℝ) * -(ω * τ)) = C * Real.exp (-(ω * (n * τ))) * ε := by
      rw [show (n : ℝ) * -(ω * τ) = -(ω * (n * τ)) by ring]; ring
    rw [e1, e2]
    exact this
  have hq : Real.exp (-(ω * τ)) < 1 := by
    rw [Real.exp_lt_one_iff]
    have := mul_pos hω hτ
    linarith
  have hlimex : ∀ (f : ColState r p z → ℝ), (∀ η u v, Spec.ColNear η u v → |f u - f v| ≤ η) →
      ∃ l, Filter.Tendsto (fun n : ℕ => f (y (n * τ))) Filter.atTop (nhds l) := by
    intro f hf
    refine cauchySeq_tendsto_of_complete (cauchySeq_of_le_geometric (Real.exp (-(ω * τ))) (C * ε) hq fun n => ?_)
    rw [Real.dist_eq]
    exact hf _ _ _ (hstep n)
  have hl : ∀ a i w, ∃ l, (a = 0 ∧ w = 0) ∨ Filter.Tendsto (fun n : ℕ => y (n * τ) a i w) Filter.atTop (nhds l) := by
    intro a i w
    by_cases haw : a = 0 ∧ w = 0
    · exact ⟨0, Or.inl haw⟩
    · refine Exists.imp (fun l hl => Or.inr hl) (hlimex (fun u => u a i w) fun η u v hn => ?_)
      by_cases ha : a = 0
      · subst ha
        exact hn.1 i w fun hw => haw ⟨rfl, hw⟩
      · obtain ⟨k, rfl⟩ := Fin.exists_succ_eq.2 ha
        exact hn.2 k i w
  choose U hU using hl
  have hUw : ∀ i w, w ≠ 0 → Filter.Tendsto (fun n : ℕ => y (n * τ) 0 i w) Filter.atTop (nhds (U 0 i w)) := fun i w hw =>
    (hU 0 i w).resolve_left fun h => hw h.2
  have hUb : ∀ (k : Fin (r + 1)) i w, Filter.Tendsto (fun n : ℕ => y (n * τ) k.succ i w) Filter.atTop (nhds (U k.succ i w)) := fun k i w =>
    (hU k.succ i w).resolve_left fun h => Fin.succ_ne_zero k h.1
  have hUt : Spec.Totals CT Q U := by
    refine ⟨fun w hw => ?_, fun k w => ?_⟩
    · refine tendsto_nhds_unique (tendsto_finsetSum _ fun i _ => hUw i w hw) ?_
      simp only [(htot _ (hnτ _)).water w hw]
      exact tendsto_const_nhds
    · refine tendsto_nhds_unique (tendsto_finsetSum _ fun i _ => hUb k i w) ?_
      simp only [(htot _ (hnτ _)).beads k w]
      exact tendsto_const_nhds
  have hclose : ∀ η : ℝ, 0 < η → ∀ᶠ n : ℕ in Filter.atTop, Spec.ColNear η (y (n * τ)) U := by
    intro η hη
    have h1 : ∀ᶠ n : ℕ in Filter.atTop, ∀ i w, w ≠ 0 → |y (n * τ) 0 i w - U 0 i w| ≤ η := by
      refine Filter.eventually_all.2 fun i => Filter.eventually_all.2 fun w => ?_
      by_cases hw : w = 0
      · exact Filter.Eventually.of_forall fun n hw' => absurd hw hw'
      · filter_upwards [Metric.tendsto_nhds.1 (hUw i w hw) η hη] with n hn _
        rw [Real.dist_eq] at hn
        exact hn.le
    have h2 : ∀ᶠ n : ℕ in Filter.atTop, ∀ (k : Fin (r + 1)) i w, |y (n * τ) k.succ i w - U k.succ i w| ≤ η := by
      refine Filter.eventually_all.2 fun k => Filter.eventually_all.2 fun i => Filter.eventually_all.2 fun w => ?_
      filter_upwards [Metric.tendsto_nhds.1 (hUb k i w) η hη] with n hn
      rw [Real.dist_eq] at hn
      exact hn.le
    filter_upwards [h1, h2] with n a b
    exact ⟨a, b⟩
  -- the run from the limit
  obtain ⟨Y, hY0, hY, hYu⟩ := c257_run h hz hC hQ hc hs hUt
  have hback : ∀ η : ℝ, 0 < η → Spec.ColNear (C * η + η) (Y τ) U := by
    intro η hη
    obtain ⟨n0, hn0⟩ := Filter.eventually_atTop.1 (hclose η hη)
    have h1 := hx η τ cin Y (fun t => y (n0 * τ + t)) (fun t _ => hs t) (hY τ) (hshift hy n0 τ) (by rw [hY0]; exact hUt)
      (by rw [add_zero]; exact htot _ (hnτ _)) (by rw [hY0, add_zero]; exact ColNear.symm (hn0 n0 le_rfl)) τ ⟨hτ.le, le_rfl⟩
    have h2 := hn0 (n0 + 1) (Nat.le_succ _)
    have e : ((n0 + 1 : ℕ) : ℝ) * τ = n0 * τ + τ := by push_cast; ring
    rw [e] at h2
    refine ColNear.trans (ColNear.mono h1 ?_) h2
    have : C * Real.exp (-(ω * τ)) * η ≤ C * 1 * η := by gcongr
    linarith
  have hzero : ∀ x : ℝ, (∀ η : ℝ, 0 < η → |x| ≤ C * η + η) → x = 0 := by
    intro x hx
    by_contra hne
    have hp : 0 < |x| := abs_pos.2 hne
    have := hx (|x| / (2 * (C + 1))) (by positivity)
    have e : C * (|x| / (2 * (C + 1))) + |x| / (2 * (C + 1)) = |x| / 2 := by field_simp
    rw [e] at this
    linarith
  have hYτ : Y τ = U := by
    funext a i w
    refine Fin.cases ?_ (fun k => ?_) a
    · by_cases hw : w = 0
      · rw [hw, inlet_const hY i hτ.le, hY0]
      · exact sub_eq_zero.1 (hzero _ fun η hη => (hback η hη).1 i w hw)
    · exact sub_eq_zero.1 (hzero _ fun η hη => (hback η hη).2 k i w)
  refine ⟨Y, hY, by rw [hY0]; exact hUt, fun t ht => ?_⟩
  have h1 := hshift hY 1
  simp only [Nat.cast_one, one_mul] at h1
  have := hYu t _ (h1 t) (by rw [add_zero]; exact hYτ) t ⟨ht, le_rfl⟩
  rw [add_comm]
  exact this

/-- C270. It is the only one, and every run falls into step with it. -/
theorem c270_step (h : Spec.PlainColumn m P jac tH) (hz : Spec.AxialGrid z P.Az) {CT : ℝ} (hC : 0 < CT) (hQ : 0 < Q)
    {cin : ℝ → Fin (p + 1) → ℝ} (hs : ∀ t, ∑ i, cin t i = CT) {τ : ℝ} (hτ : 0 < τ)
    {Y y : ℝ → ColState r p z} (hY : ∀ T, Spec.Solves colComp (fun t u => m.rhs P tH (cin t) u) 0 T Y) (hY0 : Spec.Totals CT Q (Y 0))
    (hYp : ∀ t, 0 ≤ t → Y (t + τ) = Y t)
    (hy : ∀ T, Spec.Solves colComp (fun t u => m.rhs P tH (cin t) u) 0 T y) (hy0 : Spec.Totals CT Q (y 0)) :
    (∀ i w, w ≠ 0 → Filter.Tendsto (fun t => y t 0 i w - Y t 0 i w) Filter.atTop (nhds 0)) ∧
    (∀ (k : Fin (r + 1)) i w, Filter.Tendsto (fun t => y t k.succ i w - Y t k.succ i w) Filter.atTop (nhds 0)) ∧
    ((∀ t, 0 ≤ t → y (t + τ) = y t) → ∀ t, 0 ≤ t → Spec.ColNear 0 (y t) (Y t)) := by
  obtain ⟨C, ω, hCp, hω, hx⟩ := c257_forgets (Q := Q) h hz hC hQ
  obtain ⟨ε, hε⟩ := colNear_exists (y 0) (Y 0)
  have hn : ∀ t, 0 ≤ t → Spec.ColNear (C * Real.exp (-(ω * t)) * ε) (y t) (Y t) := fun t ht =>
    hx ε t cin y Y (fun s _ => hs s) (hy t) (hY t) hy0 hY0 hε t ⟨ht, le_rfl⟩
  have hlim : Filter.Tendsto (fun t => C * Real.exp (-(ω * t)) * ε) Filter.atTop (nhds 0) := by
    have h1 : Filter.Tendsto (fun t => ω * t) Filter.atTop Filter.atTop := Filter.tendsto_id.const_mul_atTop hω
    have h3 := ((Real.tendsto_exp_neg_atTop_nhds_zero.comp h1).const_mul C).mul_const ε
    simpa using h3
  refine ⟨fun i w hw => squeeze_zero_norm' ?_ hlim, fun k i w => squeeze_zero_norm' ?_ hlim, fun hyp t ht => ?_⟩
  · filter_upwards [Filter.eventually_ge_atTop 0] with t ht
    exact (hn t ht).1 i w hw
  · filter_upwards [Filter.eventually_ge_atTop 0] with t ht
    exact (hn t ht).2 k i w
  · have hpn : ∀ {x : ℝ → ColState r p z}, (∀ t, 0 ≤ t → x (t + τ) = x t) → ∀ n : ℕ, x (t + n * τ) = x t := by
      intro x hxp n
      induction n with
      | zero => simp
      | succ n ih =>
        rw [← ih, ← hxp (t + n * τ) (by positivity)]
        congr 1
        push_cast
        ring
    have hseq : Filter.Tendsto (fun n : ℕ => t + n * τ) Filter.atTop Filter.atTop :=
      Filter.tendsto_atTop_add_const_left _ t (tendsto_natCast_atTop_atTop.atTop_mul_const hτ)
    have hl := hlim.comp hseq
    refine ⟨fun i w hw => ge_of_tendsto' hl fun n => ?_, fun k i w => ge_of_tendsto' hl fun n => ?_⟩
    · have := (hn (t + n * τ) (by positivity)).1 i w hw
      rw [hpn hyp, hpn hYp] at this
      exact this
    · have := (hn (t + n * τ) (by positivity)).2 k i w
      rw [hpn hyp, hpn hYp] at this
      exact this

/-- C270. In step, what leaves over a period is what was fed. -/
theorem c270_mean (h : Spec.PlainColumn m P jac tH) (hM : 2 ≤ z) (hz : Spec.AxialGrid z P.Az)
    {cin : ℝ → Fin (p + 1) → ℝ} (hc : Continuous cin) {τ : ℝ} (hτ : 0 < τ)
    {Y : ℝ → ColState r p z} (hY : ∀ T, Spec.Solves colComp (fun t u => m.rhs P tH (cin t) u) 0 T Y)
    (hYp : ∀ t, 0 ≤ t → Y (t + τ) = Y t) (i : Fin (p + 1)) :
    ∫ t in (0 : ℝ)..τ, Y t 0 i (Fin.last z) = ∫ t in (0 : ℝ)..τ, cin t i := by
  obtain ⟨g, hgi, -, hgt⟩ := axial_mean hz hM
  have hW := (h.grid.wpos (Fin.last r)).ne'
  have hE := h.bed.1.ne'
  have hci : Continuous fun t => cin t i := (continuous_apply i).comp hc
  have hb := c155_solutions m P (by omega) tH cin hW hE hgi hgt i hτ.le (hY τ) (hci.intervalIntegrable _ _)
  have e := hYp 0 le_rfl
  rw [zero_add] at e
  rw [e, sub_self] at hb
  have hk : P.v / P.L * tH ≠ 0 := mul_ne_zero (div_ne_zero h.flow.1.ne' h.flow.2.ne') h.time.ne'
  have := (mul_eq_zero.1 hb.symm).resolve_left hk
  linarith

end

/-- A column as in C270, fed with a water of two ions that swing against each other. -/
example (m : ColModel) (r z : ℕ) (hM : 2 ≤ z) (A : Fin (z + 1) → Fin (z + 1) → ℝ) (hA : Spec.AxialGrid z A) : ∃ (P : ColParams r 2 z)
    (Y : ℝ → ColState r 2 z), (∀ T, Spec.Solves colComp (fun t u => m.rhs P 1 ![1, 2 + Real.sin t, 3 - Real.sin t] u) 0 T Y) ∧
    Spec.Totals 6 5 (Y 0) ∧ (∀ t, 0 ≤ t → Y (t + 2 * Real.pi) = Y t) ∧
    ∫ t in (0 : ℝ)..2 * Real.pi, Y t 0 2 (Fin.last z) = 3 * (2 * Real.pi) := by
  obtain ⟨jac, B, W, g⟩ := beadGrid_exists r
  let P : ColParams r 2 z := ⟨1 / 2, 1, 1, 1, 5, 1 / 2, fun _ => 1, fun _ => 1, fun _ => 2, fun _ => 1, fun _ => 1, A, B, W⟩
  have hP : Spec.PlainColumn m P jac 1 := ⟨g, by show (0 : ℝ) < 1 / 2 ∧ (1 / 2 : ℝ) < 1; norm_num, ⟨one_pos, one_pos⟩, one_pos, one_pos,
    fun _ _ => ⟨one_pos, one_pos⟩, fun _ => ⟨by show (0 : ℝ) ≤ 1 / 2; norm_num, by show (1 / 2 : ℝ) < 1; norm_num,
      fun _ _ => by show (1 : ℝ) ≤ 2; norm_num⟩, fun _ => rfl, fun _ => by show (1 : ℕ) ≠ 2; decide⟩
  let cin : ℝ → Fin 3 → ℝ := fun t => ![1, 2 + Real.sin t, 3 - Real.sin t]
  have hc : Continuous cin := by
    refine continuous_pi fun i => ?_
    fin_cases i
    · exact continuous_const
    · exact continuous_const.add Real.continuous_sin
    · exact continuous_const.sub Real.continuous_sin
  have hsum : ∀ t, ∑ i, cin t i = 6 := by
    intro t
    simp [cin, Fin.sum_univ_three]
    ring
  have hp : ∀ t, cin (t + 2 * Real.pi) = cin t := fun t => by simp only [cin, Real.sin_add_two_pi]
  obtain ⟨Y, hY, hY0, hYp⟩ := c270_cycle (Q := 5) hP hA (by norm_num : (0:ℝ) < 6) (by norm_num) hc hsum Real.two_pi_pos hp
  refine ⟨P, Y, hY, hY0, hYp, ?_⟩
  rw [c270_mean hP hM hA hc Real.two_pi_pos hY hYp 2]
  have e : ∀ t, cin t 2 = 3 - Real.sin t := fun t => by simp [cin]
  simp only [e]
  rw [intervalIntegral.integral_sub intervalIntegrable_const (Real.continuous_sin.intervalIntegrable _ _), integral_sin]
  simp
  ring

end WTM
