import Verif.Lemmas.Global

/-! Solutions of a differential equation with inputs in time, over the whole of an interval. -/
set_option autoImplicit false
namespace WTM
open Set Topology Filter

variable {E G : Type} [NormedAddCommGroup E] [NormedSpace ℝ E]

/-- Two solutions, the second starting where the first ends, make one. -/
theorem glue_forced {f : ℝ → E → E} {a b c : ℝ} (hab : a ≤ b) (hbc : b ≤ c) {y1 y2 : ℝ → E}
    (h1 : ∀ t ∈ Icc a b, HasDerivWithinAt y1 (f t (y1 t)) (Icc a b) t)
    (h2 : ∀ t ∈ Icc b c, HasDerivWithinAt y2 (f t (y2 t)) (Icc b c) t) (h0 : y2 b = y1 b) :
    ∃ y : ℝ → E, (∀ t ∈ Icc a b, y t = y1 t) ∧ ∀ t ∈ Icc a c, HasDerivWithinAt y (f t (y t)) (Icc a c) t := by
  set y : ℝ → E := fun t => if t ≤ b then y1 t else y2 t with hy
  have e1 : ∀ t ≤ b, y t = y1 t := fun t ht => if_pos ht
  have e2 : ∀ t ≥ b, y t = y2 t := by
    intro t ht
    rcases eq_or_lt_of_le ht with h | h
    · rw [e1 t h.ge, ← h, h0]
    · exact if_neg (not_le.2 h)
  refine ⟨y, fun t ht => e1 t ht.2, fun t ht => ?_⟩
  have g1 : ∀ t ∈ Icc a b, HasDerivWithinAt y (f t (y t)) (Icc a b) t := by
    intro t ht
    rw [e1 t ht.2]
    exact (h1 t ht).congr (fun s hs => e1 s hs.2) (e1 t ht.2)
  have g2 : ∀ t ∈ Icc b c, HasDerivWithinAt y (f t (y t)) (Icc b c) t := by
    intro t ht
    rw [e2 t ht.1]
    exact (h2 t ht).congr (fun s hs => e2 s hs.1) (e2 t ht.1)
  rcases lt_trichotomy t b with h | h | h
  · refine (g1 t ⟨ht.1, h.le⟩).mono_of_mem_nhdsWithin ?_
    filter_upwards [self_mem_nhdsWithin, nhdsWithin_le_nhds (Iio_mem_nhds h)] with s hs hs'
    exact ⟨hs.1, le_of_lt hs'⟩
  · rw [h, ← Icc_union_Icc_eq_Icc hab hbc]
    exact (g1 b ⟨hab, le_rfl⟩).union (g2 b ⟨le_rfl, hbc⟩)
  · refine (g2 t ⟨h.le, ht.2⟩).mono_of_mem_nhdsWithin ?_
    filter_upwards [self_mem_nhdsWithin, nhdsWithin_le_nhds (Ioi_mem_nhds h)] with s hs hs'
    exact ⟨le_of_lt hs', hs.2⟩

/-- From the states of a ball there are solutions for a common time. -/
theorem step_forced [ProperSpace E] [PseudoMetricSpace G] {F : G × E → E} (hF : LocallyLipschitz F) {c : ℝ → G} {a b : ℝ}
    (hc : ContinuousOn c (Icc a b)) (R : ℝ) :
    ∃ δ > 0, ∀ x, ‖x‖ ≤ R → ∀ s ∈ Icc a b, ∃ y : ℝ → E, y s = x ∧
      ∀ t ∈ Icc s (min (s + δ) b), HasDerivWithinAt y (F (c t, y t)) (Icc s (min (s + δ) b)) t := by
  have hK : IsCompact ((c '' Icc a b) ×ˢ Metric.closedBall (0 : E) (R + 1)) :=
    (isCompact_Icc.image_of_continuousOn hc).prod (isCompact_closedBall (0 : E) (R + 1))
  obtain ⟨K, hL⟩ := LocallyLipschitzOn.exists_lipschitzOnWith_of_compact hK hF.locallyLipschitzOn
  obtain ⟨M, hM⟩ := hK.exists_bound_of_continuousOn hF.continuous.continuousOn
  have hsub : ∀ x : E, ‖x‖ ≤ R → Metric.closedBall x 1 ⊆ Metric.closedBall 0 (R + 1) := by
    intro x hx
    refine Metric.closedBall_subset_closedBall' ?_
    rw [dist_zero_right]
    linarith
  set L : NNReal := ⟨max M 0, le_max_right _ _⟩ with hLd
  have hL1 : (0 : ℝ) < L + 1 := by positivity
  have hδ : 0 < 1 / (L + 1 : ℝ) := by positivity
  refine ⟨1 / (L + 1), hδ, fun x hx s hs => ?_⟩
  have had : s ≤ min (s + 1 / (L + 1 : ℝ)) b := le_min (by linarith) hs.2
  have hin : ∀ t ∈ Icc s (min (s + 1 / (L + 1 : ℝ)) b), t ∈ Icc a b :=
    fun t ht => ⟨hs.1.trans ht.1, ht.2.trans (min_le_right _ _)⟩
  have hpl : IsPicardLindelof (fun t u => F (c t, u)) (⟨s, ⟨le_rfl, had⟩⟩ : Icc s (min (s + 1 / (L + 1 : ℝ)) b)) x 1 0 L K := by
    refine ⟨fun t ht => ?_, fun u _ => ?_, fun t ht u hu => ?_, ?_⟩
    · intro u hu v hv
      have := hL (show (c t, u) ∈ _ from ⟨mem_image_of_mem c (hin t ht), hsub x hx hu⟩)
        (show (c t, v) ∈ _ from ⟨mem_image_of_mem c (hin t ht), hsub x hx hv⟩)
      simpa [Prod.edist_eq] using this
    · exact hF.continuous.comp_continuousOn ((hc.mono hin).prodMk continuousOn_const)
    · exact (hM (c t, u) ⟨mem_image_of_mem c (hin t ht), hsub x hx hu⟩).trans (le_max_left _ _)
    · have h2 : max (min (s + 1 / (L + 1 : ℝ)) b - s) (s - s) ≤ 1 / (L + 1 : ℝ) := by
        rw [sub_self]
        refine max_le ?_ hδ.le
        have := min_le_left (s + 1 / (L + 1 : ℝ)) b
        linarith
      show (L : ℝ) * max (min (s + 1 / (L + 1 : ℝ)) b - s) (s - s) ≤ 1 - 0
      refine (mul_le_mul_of_nonneg_left h2 (NNReal.coe_nonneg L)).trans ?_
      rw [sub_zero, mul_one_div, div_le_one hL1]
      linarith
  exact hpl.exists_eq_forall_mem_Icc_hasDerivWithinAt₀

/-- If solutions stay bounded there is one over the whole interval. -/
theorem global_forced [ProperSpace E] [PseudoMetricSpace G] {F : G × E → E} (hF : LocallyLipschitz F) {c : ℝ → G} {a b : ℝ}
    (hab : a ≤ b) (hc : ContinuousOn c (Icc a b)) {x : E} {R : ℝ}
    (hb : ∀ T ∈ Icc a b, ∀ y : ℝ → E, y a = x → (∀ t ∈ Icc a T, HasDerivWithinAt y (F (c t, y t)) (Icc a T) t) →
      ‖y T‖ ≤ R) :
    ∃ y : ℝ → E, y a = x ∧ ∀ t ∈ Icc a b, HasDerivWithinAt y (F (c t, y t)) (Icc a b) t := by
  obtain ⟨δ, hδ, hstep⟩ := step_forced hF hc (max R ‖x‖)
  have hn : ∀ n : ℕ, ∃ y : ℝ → E, y a = x ∧ ∀ t ∈ Icc a (min (a + (n + 1) * δ) b),
      HasDerivWithinAt y (F (c t, y t)) (Icc a (min (a + (n + 1) * δ) b)) t := by
    intro n
    induction n with
    | zero =>
      obtain ⟨y, h0, h⟩ := hstep x (le_max_right _ _) a ⟨le_rfl, hab⟩
      refine ⟨y, h0, ?_⟩
      simpa using h
    | succ n ih =>
      obtain ⟨y1, h0, h1⟩ := ih
      set s := min (a + ((n : ℝ) + 1) * δ) b with hs
      have has : a ≤ s := le_min (by have : (0:ℝ) ≤ (n + 1) * δ := by positivity
                                     linarith) hab
      have hsb : s ≤ b := min_le_right _ _
      obtain ⟨y2, e0, h2⟩ := hstep (y1 s) ((hb s ⟨has, hsb⟩ y1 h0 h1).trans (le_max_left _ _)) s ⟨has, hsb⟩
      obtain ⟨y, ey, hy⟩ := glue_forced (f := fun t u => F (c t, u)) has (le_min (by linarith) hsb) h1 h2 e0
      refine ⟨y, (ey a ⟨le_rfl, has⟩).trans h0, ?_⟩
      have e : min (s + δ) b = min (a + ((n + 1 : ℕ) + 1) * δ) b := by
        rw [hs]
        push_cast
        rcases le_total (a + ((n : ℝ) + 1) * δ) b with h | h
        · rw [min_eq_left h]; congr 1; ring
        · rw [min_eq_right h, min_eq_right (by linarith), min_eq_right (by nlinarith)]
      rwa [e] at hy
  obtain ⟨k, hk⟩ := exists_nat_gt ((b - a) / δ)
  obtain ⟨y, h0, h⟩ := hn k
  have : min (a + ((k : ℝ) + 1) * δ) b = b := by
    rw [div_lt_iff₀ hδ] at hk
    exact min_eq_right (by nlinarith)
  rw [this] at h
  exact ⟨y, h0, h⟩

/-- A quantity that grows at most in proportion to itself and a constant. -/
theorem growth_bound {N N' : ℝ → ℝ} {a b K M : ℝ}
    (hd : ∀ t ∈ Icc a b, HasDerivWithinAt N (N' t) (Icc a b) t) (hN : ∀ t ∈ Icc a b, N' t ≤ K * (N t + M)) :
    ∀ t ∈ Icc a b, N t + M ≤ (N a + M) * Real.exp (K * (t - a)) := by
  have hd2 : ∀ t ∈ Icc a b, HasDerivWithinAt (fun t => (N t + M) * Real.exp (-(K * (t - a))))
      ((N' t - K * (N t + M)) * Real.exp (-(K * (t - a)))) (Icc a b) t := by
    intro t ht
    have h2 : HasDerivAt (fun t : ℝ => Real.exp (-(K * (t - a)))) (Real.exp (-(K * (t - a))) * (-(K * 1))) t :=
      ((((hasDerivAt_id t).sub_const a).const_mul K).neg).exp
    refine HasDerivWithinAt.congr_deriv (((hd t ht).add_const M).mul h2.hasDerivWithinAt) ?_
    ring
  have hanti : AntitoneOn (fun t => (N t + M) * Real.exp (-(K * (t - a)))) (Icc a b) := by
    refine antitoneOn_of_deriv_nonpos (convex_Icc a b) (fun t ht => (hd2 t ht).continuousWithinAt) (fun t ht => ?_) (fun t ht => ?_)
    · rw [interior_Icc] at ht
      exact ((hd2 t (Ioo_subset_Icc_self ht)).hasDerivAt (Icc_mem_nhds ht.1 ht.2)).differentiableAt.differentiableWithinAt
    · rw [interior_Icc] at ht
      rw [((hd2 t (Ioo_subset_Icc_self ht)).hasDerivAt (Icc_mem_nhds ht.1 ht.2)).deriv]
      have := hN t (Ioo_subset_Icc_self ht)
      exact mul_nonpos_of_nonpos_of_nonneg (by linarith) (Real.exp_pos _).le
  intro t ht
  have := hanti ⟨le_rfl, ht.1.trans ht.2⟩ ht ht.1
  simp only [sub_self, mul_zero, neg_zero, Real.exp_zero, mul_one] at this
  rw [Real.exp_neg, ← div_eq_mul_inv, div_le_iff₀ (Real.exp_pos _)] at this
  exact this

end WTM
