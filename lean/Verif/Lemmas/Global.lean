import Verif.Lemmas.Unique
import Mathlib.Topology.Algebra.MetricSpace.Lipschitz
import Mathlib.Analysis.Normed.Module.FiniteDimension

/-! Solutions of a differential equation for all time, and where they tend. -/
set_option autoImplicit false
namespace WTM
open Set Topology Filter

variable {E : Type} [NormedAddCommGroup E] [NormedSpace ℝ E]

/-- Two solutions of an autonomous equation from one state agree. -/
theorem unique_auto {F : E → E} (hF : LocallyLipschitz F) {a b : ℝ} {y1 y2 : ℝ → E}
    (h1 : ∀ t ∈ Icc a b, HasDerivWithinAt y1 (F (y1 t)) (Icc a b) t)
    (h2 : ∀ t ∈ Icc a b, HasDerivWithinAt y2 (F (y2 t)) (Icc a b) t) (h0 : y1 a = y2 a) :
    ∀ t ∈ Icc a b, y1 t = y2 t :=
  unique_of_lip (G := ℝ) (c := fun _ => 0) (F := fun x => F x.2) continuousOn_const h1 h2 h0
    (fun t _ => (hF.comp (LipschitzWith.prod_snd.locallyLipschitz : LocallyLipschitz (Prod.snd : ℝ × E → E))) (0, y1 t))

/-- From the states of a ball an equation has solutions for a common time. -/
theorem step_auto [ProperSpace E] {F : E → E} (hF : LocallyLipschitz F) (R : ℝ) :
    ∃ δ > 0, ∀ x, ‖x‖ ≤ R → ∀ a : ℝ, ∃ y : ℝ → E, y a = x ∧
      ∀ t ∈ Icc a (a + δ), HasDerivWithinAt y (F (y t)) (Icc a (a + δ)) t := by
  have hK := isCompact_closedBall (0 : E) (R + 1)
  obtain ⟨K, hL⟩ := LocallyLipschitzOn.exists_lipschitzOnWith_of_compact hK hF.locallyLipschitzOn
  obtain ⟨M, hM⟩ := hK.exists_bound_of_continuousOn hF.continuous.continuousOn
  have hsub : ∀ x : E, ‖x‖ ≤ R → Metric.closedBall x 1 ⊆ Metric.closedBall 0 (R + 1) := by
    intro x hx
    refine Metric.closedBall_subset_closedBall' ?_
    rw [dist_zero_right]
    linarith
  set L : NNReal := ⟨max M 0, le_max_right _ _⟩ with hLd
  have hL1 : (0 : ℝ) < L + 1 := by positivity
  refine ⟨1 / (L + 1), by positivity, fun x hx a => ?_⟩
  have had : a ≤ a + 1 / (L + 1 : ℝ) := by
    have : 0 < 1 / (L + 1 : ℝ) := by positivity
    linarith
  have hpl : IsPicardLindelof (fun _ u => F u) (⟨a, ⟨le_rfl, had⟩⟩ : Icc a (a + 1 / (L + 1 : ℝ))) x 1 0 L K := by
    refine ⟨fun t _ => hL.mono (hsub x hx), fun u _ => continuousOn_const, fun t _ u hu => ?_, ?_⟩
    · exact (hM u (hsub x hx hu)).trans (le_max_left _ _)
    · have h2 : max (a + 1 / (L + 1 : ℝ) - a) (a - a) = 1 / (L + 1 : ℝ) := by
        rw [sub_self, add_sub_cancel_left]; exact max_eq_left (by positivity)
      show (L : ℝ) * max (a + 1 / (L + 1 : ℝ) - a) (a - a) ≤ 1 - 0
      rw [h2, sub_zero, mul_one_div, div_le_one hL1]
      linarith
  exact hpl.exists_eq_forall_mem_Icc_hasDerivWithinAt₀

/-- Two solutions, the second starting where the first ends, make one. -/
theorem glue_auto {F : E → E} {a b c : ℝ} (hab : a ≤ b) (hbc : b ≤ c) {y1 y2 : ℝ → E}
    (h1 : ∀ t ∈ Icc a b, HasDerivWithinAt y1 (F (y1 t)) (Icc a b) t)
    (h2 : ∀ t ∈ Icc b c, HasDerivWithinAt y2 (F (y2 t)) (Icc b c) t) (h0 : y2 b = y1 b) :
    ∃ y : ℝ → E, (∀ t ∈ Icc a b, y t = y1 t) ∧ ∀ t ∈ Icc a c, HasDerivWithinAt y (F (y t)) (Icc a c) t := by
  set y : ℝ → E := fun t => if t ≤ b then y1 t else y2 t with hy
  have e1 : ∀ t ≤ b, y t = y1 t := fun t ht => if_pos ht
  have e2 : ∀ t ≥ b, y t = y2 t := by
    intro t ht
    rcases eq_or_lt_of_le ht with h | h
    · rw [e1 t h.ge, ← h, h0]
    · exact if_neg (not_le.2 h)
  refine ⟨y, fun t ht => e1 t ht.2, fun t ht => ?_⟩
  have g1 : ∀ t ∈ Icc a b, HasDerivWithinAt y (F (y t)) (Icc a b) t := by
    intro t ht
    rw [e1 t ht.2]
    exact (h1 t ht).congr (fun s hs => e1 s hs.2) (e1 t ht.2)
  have g2 : ∀ t ∈ Icc b c, HasDerivWithinAt y (F (y t)) (Icc b c) t := by
    intro t ht
    rw [e2 t ht.1]
    exact (h2 t ht).congr (fun s hs => e2 s hs.1) (e2 t ht.1)
  rcases lt_trichotomy t b with h | h | h
  · refine (g1 t ⟨ht.1, h.le⟩).mono_of_mem_nhdsWithin ?_
    filter_upwards [self_mem_nhdsWithin, nhdsWithin_le_nhds (Iio_mem_nhds h)] with s hs hs'
    exact ⟨hs.1, le_of_lt hs'⟩
  · rw [h, ← Icc_union_Icc_eq_Icc hab hbc]
    exact (g1 b ⟨hab, le_rfl⟩).union (g2 b ⟨le_rfl, hbc⟩)
  · refine (g2 t ⟨h.le, ht.2⟩).mono_of_mem_nhdsWithin ?_
    filter_upwards [self_mem_nhdsWithin, nhdsWithin_le_nhds (Ioi_mem_nhds h)] with s hs hs'
    exact ⟨le_of_lt hs', hs.2⟩

/-- An equation whose solutions from `x` stay bounded has one for all time. -/
theorem global_auto [ProperSpace E] {F : E → E} (hF : LocallyLipschitz F) {x : E} {R : ℝ}
    (hb : ∀ T : ℝ, 0 ≤ T → ∀ y : ℝ → E, y 0 = x → (∀ t ∈ Icc 0 T, HasDerivWithinAt y (F (y t)) (Icc 0 T) t) →
      ‖y T‖ ≤ R) :
    ∃ y : ℝ → E, y 0 = x ∧ ∀ t ≥ 0, HasDerivWithinAt y (F (y t)) (Ici 0) t := by
  obtain ⟨δ, hδ, hstep⟩ := step_auto hF (max R ‖x‖)
  have hn : ∀ n : ℕ, ∃ y : ℝ → E, y 0 = x ∧ ∀ t ∈ Icc 0 ((n + 1) * δ), HasDerivWithinAt y (F (y t)) (Icc 0 ((n + 1) * δ)) t := by
    intro n
    induction n with
    | zero =>
      obtain ⟨y, h0, h⟩ := hstep x (le_max_right _ _) 0
      refine ⟨y, h0, ?_⟩
      rw [zero_add] at h
      simpa using h
    | succ n ih =>
      obtain ⟨y1, h0, h1⟩ := ih
      have hT : (0 : ℝ) ≤ (n + 1) * δ := by positivity
      obtain ⟨y2, e0, h2⟩ := hstep (y1 ((n + 1) * δ)) ((hb _ hT y1 h0 h1).trans (le_max_left _ _)) ((n + 1) * δ)
      obtain ⟨y, ey, hy⟩ := glue_auto hT (by linarith) h1 h2 e0
      refine ⟨y, (ey 0 ⟨le_rfl, hT⟩).trans h0, ?_⟩
      have e : ((n : ℝ) + 1) * δ + δ = ((n + 1 : ℕ) + 1) * δ := by push_cast; ring
      rwa [e] at hy
  have hN : ∀ n : ℕ, ∃ y : ℝ → E, y 0 = x ∧ ∀ t ∈ Icc 0 ((n : ℝ) + 2), HasDerivWithinAt y (F (y t)) (Icc 0 ((n : ℝ) + 2)) t := by
    intro n
    obtain ⟨k, hk⟩ := exists_nat_gt (((n : ℝ) + 2) / δ)
    obtain ⟨y, h0, h⟩ := hn k
    have hle : (n : ℝ) + 2 ≤ (k + 1) * δ := by
      rw [div_lt_iff₀ hδ] at hk
      nlinarith
    exact ⟨y, h0, fun t ht => (h t ⟨ht.1, ht.2.trans hle⟩).mono (Icc_subset_Icc_right hle)⟩
  choose sol s0 hs using hN
  have agree : ∀ m n : ℕ, m ≤ n → ∀ t ∈ Icc 0 ((m : ℝ) + 2), sol n t = sol m t := by
    intro m n hmn
    have hle : (m : ℝ) + 2 ≤ n + 2 := by
      have : (m : ℝ) ≤ n := by exact_mod_cast hmn
      linarith
    exact unique_auto hF (fun t ht => (hs n t ⟨ht.1, ht.2.trans hle⟩).mono (Icc_subset_Icc_right hle)) (hs m)
      ((s0 n).trans (s0 m).symm)
  have val : ∀ N : ℕ, ∀ t : ℝ, 0 ≤ t → t < N + 2 → sol ⌊t⌋₊ t = sol N t := by
    intro N t ht htN
    have h1 := Nat.lt_floor_add_one t
    rcases le_total ⌊t⌋₊ N with h | h
    · exact (agree _ _ h t ⟨ht, by linarith⟩).symm
    · exact agree _ _ h t ⟨ht, htN.le⟩
  refine ⟨fun t => sol ⌊t⌋₊ t, by simp only [Nat.floor_zero]; exact s0 0, fun t ht => ?_⟩
  have hlt : t < (⌊t⌋₊ : ℝ) + 2 := by
    have := Nat.lt_floor_add_one t
    linarith
  have h1 : HasDerivWithinAt (sol ⌊t⌋₊) (F (sol ⌊t⌋₊ t)) (Ici 0) t := by
    refine (hs ⌊t⌋₊ t ⟨ht, hlt.le⟩).mono_of_mem_nhdsWithin ?_
    filter_upwards [self_mem_nhdsWithin, nhdsWithin_le_nhds (Iio_mem_nhds hlt)] with s hs hs'
    exact ⟨hs, le_of_lt hs'⟩
  refine h1.congr_of_eventuallyEq ?_ rfl
  filter_upwards [self_mem_nhdsWithin, nhdsWithin_le_nhds (Iio_mem_nhds hlt)] with s hs hs'
  exact val ⌊t⌋₊ s hs hs'

/-- A quantity whose rate along a bounded run is `-D` with `D` continuous and nonnegative on the states `Z` of the run: the
run tends to the one state of `Z` where `D` vanishes. -/
theorem lasalle {F : E → E} (hF : Continuous F) {y : ℝ → E} (hy : ∀ t ≥ 0, HasDerivWithinAt y (F (y t)) (Ici 0) t) {Z : Set E}
    (hZ : IsCompact Z) (hyZ : ∀ t ≥ 0, y t ∈ Z) {D : E → ℝ} (hD : ContinuousOn D Z) (hD0 : ∀ u ∈ Z, 0 ≤ D u) {e : E}
    (he : ∀ u ∈ Z, D u = 0 → u = e) {V : ℝ → ℝ} (hV : ∀ t ≥ 0, HasDerivWithinAt V (-D (y t)) (Ici 0) t)
    {b : ℝ} (hb : ∀ t ≥ 0, b ≤ V t) : Tendsto y atTop (𝓝 e) := by
  -- the run is Lipschitz
  obtain ⟨M, hM⟩ := hZ.exists_bound_of_continuousOn (f := F) hF.continuousOn
  have hlip : ∀ s ≥ 0, ∀ t ≥ 0, ‖y t - y s‖ ≤ M * ‖t - s‖ := by
    intro s hs t ht
    exact (convex_Ici (0 : ℝ)).norm_image_sub_le_of_norm_hasDerivWithin_le (f' := fun t => F (y t)) (fun t ht => hy t ht)
      (fun t ht => hM _ (hyZ t ht)) hs ht
  have hM0 : 0 ≤ M := (norm_nonneg _).trans (hM _ (hyZ 0 le_rfl))
  have hVc : ContinuousOn V (Ici 0) := fun t ht => (hV t ht).continuousWithinAt
  -- the quantity falls, so it settles
  have hdrop : ∀ s ≥ 0, ∀ t ≥ s, ∀ c : ℝ, (∀ τ ∈ Icc s t, c ≤ D (y τ)) → c * (t - s) ≤ V s - V t := by
    intro s hs t hst c hc
    have := (convex_Icc s t).image_sub_le_mul_sub_of_deriv_le (f := V) (C := -c)
      (hVc.mono (fun τ hτ => hs.trans hτ.1)) (fun τ hτ => ?_) (fun τ hτ => ?_) s ⟨le_rfl, hst⟩ t ⟨hst, le_rfl⟩ hst
    · linarith
    · rw [interior_Icc] at hτ
      have h0 : 0 < τ := lt_of_le_of_lt hs hτ.1
      exact ((hV τ h0.le).hasDerivAt (Ici_mem_nhds h0)).differentiableAt.differentiableWithinAt
    · rw [interior_Icc] at hτ
      have h0 : 0 < τ := lt_of_le_of_lt hs hτ.1
      rw [((hV τ h0.le).hasDerivAt (Ici_mem_nhds h0)).deriv]
      have := hc τ ⟨hτ.1.le, hτ.2.le⟩
      linarith
  have hanti : ∀ s ≥ 0, ∀ t ≥ s, V t ≤ V s := by
    intro s hs t hst
    have := hdrop s hs t hst 0 (fun τ hτ => hD0 _ (hyZ τ (hs.trans hτ.1)))
    linarith
  have hcauchy : ∀ η > 0, ∃ T ≥ 0, ∀ s ≥ T, ∀ t ≥ s, V s - V t < η := by
    intro η hη
    have hne : (V '' Ici 0).Nonempty := ⟨V 0, 0, mem_Ici.2 le_rfl, rfl⟩
    have hbd : BddBelow (V '' Ici 0) := ⟨b, by rintro _ ⟨t, ht, rfl⟩; exact hb t ht⟩
    obtain ⟨_, ⟨T, hT, rfl⟩, hlt⟩ := exists_lt_of_csInf_lt hne (show sInf (V '' Ici 0) < sInf (V '' Ici 0) + η by linarith)
    refine ⟨T, hT, fun s hs t hst => ?_⟩
    have h1 := hanti T hT s hs
    have h2 : sInf (V '' Ici 0) ≤ V t := csInf_le hbd ⟨t, (le_trans hT (hs.trans hst) : (0:ℝ) ≤ t), rfl⟩
    linarith
  -- what it loses per time vanishes
  have hDunif : UniformContinuousOn D Z := hZ.uniformContinuousOn_of_continuous hD
  have hvan : ∀ η > 0, ∃ T ≥ 0, ∀ t ≥ T, D (y t) < η := by
    intro η hη
    obtain ⟨δ, hδ, hδ2⟩ := Metric.uniformContinuousOn_iff.1 hDunif (η / 2) (by linarith)
    set τ0 := δ / (2 * (M + 1)) with hτ0
    have hτpos : 0 < τ0 := by positivity
    obtain ⟨T, hT, hT2⟩ := hcauchy (η / 2 * τ0) (by positivity)
    refine ⟨T, hT, fun t ht => ?_⟩
    by_contra hcon
    have hcon := not_lt.1 hcon
    have ht0 : 0 ≤ t := hT.trans ht
    have h1 := hdrop t ht0 (t + τ0) (by linarith) (η / 2) (fun τ hτ => by
      have hτ' : 0 ≤ τ := ht0.trans hτ.1
      have h2 := hlip t ht0 τ hτ'
      have h3 : dist (y τ) (y t) < δ := by
        rw [dist_eq_norm]
        refine lt_of_le_of_lt h2 ?_
        rw [Real.norm_eq_abs, abs_of_nonneg (by linarith [hτ.1])]
        have h4 : τ - t ≤ τ0 := by linarith [hτ.2]
        calc M * (τ - t) ≤ M * τ0 := mul_le_mul_of_nonneg_left h4 hM0
          _ ≤ (M + 1) * τ0 := by nlinarith
          _ = δ / 2 := by rw [hτ0]; field_simp
          _ < δ := by linarith
      have h5 := hδ2 _ (hyZ τ hτ') _ (hyZ t ht0) h3
      rw [Real.dist_eq, abs_lt] at h5
      linarith [h5.1])
    have h6 := hT2 t ht (t + τ0) (by linarith)
    rw [add_sub_cancel_left] at h1
    linarith
  -- so the run enters every neighbourhood of the rest state
  intro U hU
  rw [mem_map]
  obtain ⟨O, hOU, hO, heO⟩ := mem_nhds_iff.1 hU
  rcases (Z \ O).eq_empty_or_nonempty with h | h
  · filter_upwards [eventually_ge_atTop 0] with t ht
    by_contra hn
    have : y t ∈ Z \ O := ⟨hyZ t ht, fun h' => hn (hOU h')⟩
    rw [h] at this
    exact this
  · obtain ⟨u, hu, hmin⟩ := (hZ.diff hO).exists_isMinOn h (hD.mono sdiff_subset)
    have hpos : 0 < D u := by
      refine lt_of_le_of_ne (hD0 u hu.1) (fun h0 => hu.2 ?_)
      rw [he u hu.1 h0.symm]
      exact heO
    obtain ⟨T, hT, hT2⟩ := hvan (D u) hpos
    filter_upwards [eventually_ge_atTop T] with t ht
    by_contra hn
    have h1 : D u ≤ D (y t) := hmin ⟨hyZ t (hT.trans ht), fun h' => hn (hOU h')⟩
    have := hT2 t ht
    linarith

end WTM
