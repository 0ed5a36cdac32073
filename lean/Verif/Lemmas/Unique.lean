import Mathlib.Analysis.ODE.ExistUnique
import Mathlib.Analysis.Calculus.ContDiff.RCLike
import Mathlib.Analysis.Calculus.ContDiff.Operations
import Verif.Spec.Ode

/-! Two solutions of an equation that is locally Lipschitz along one of them agree if they start together. -/
set_option autoImplicit false
namespace WTM
open Set Filter Topology

variable {E G : Type} [NormedAddCommGroup E] [NormedSpace ℝ E] [NormedAddCommGroup G] [NormedSpace ℝ G]

theorem unique_of_local {f : ℝ → E → E} {a b : ℝ} {y1 y2 : ℝ → E}
    (h1 : ∀ t ∈ Icc a b, HasDerivWithinAt y1 (f t (y1 t)) (Icc a b) t)
    (h2 : ∀ t ∈ Icc a b, HasDerivWithinAt y2 (f t (y2 t)) (Icc a b) t) (h0 : y1 a = y2 a)
    (hL : ∀ t ∈ Ico a b, ∃ K : NNReal, ∃ s ∈ 𝓝 (y1 t), ∀ᶠ τ in 𝓝[Icc a b] t, LipschitzOnWith K (f τ) s) :
    ∀ t ∈ Icc a b, y1 t = y2 t := by
  have c1 : ContinuousOn y1 (Icc a b) := fun t ht => (h1 t ht).continuousWithinAt
  have c2 : ContinuousOn y2 (Icc a b) := fun t ht => (h2 t ht).continuousWithinAt
  have key : Icc a b ⊆ {t | y1 t = y2 t} := by
    refine IsClosed.Icc_subset_of_forall_mem_nhdsWithin ?_ h0 ?_
    · have : {t | y1 t = y2 t} ∩ Icc a b = Icc a b ∩ (fun t => y1 t - y2 t) ⁻¹' {0} := by
        ext t; simp [sub_eq_zero, and_comm]
      rw [this]
      exact (c1.sub c2).preimage_isClosed_of_isClosed isClosed_Icc isClosed_singleton
    · rintro t ⟨hteq, ht⟩
      obtain ⟨K, s, hs, hev⟩ := hL t ht
      have htc : t ∈ Icc a b := ⟨ht.1, ht.2.le⟩
      have e1 : ∀ᶠ τ in 𝓝[Icc a b] t, y1 τ ∈ s := c1 t htc hs
      have hs2 : s ∈ 𝓝 (y2 t) := by rw [← show y1 t = y2 t from hteq]; exact hs
      have e2 : ∀ᶠ τ in 𝓝[Icc a b] t, y2 τ ∈ s := c2 t htc hs2
      obtain ⟨ε, hε, hball⟩ := Metric.mem_nhdsWithin_iff.1 (hev.and (e1.and e2))
      set d := min (t + ε / 2) b with hd
      have htd : t < d := lt_min (by linarith) ht.2
      have hin : ∀ τ ∈ Icc t d, LipschitzOnWith K (f τ) s ∧ y1 τ ∈ s ∧ y2 τ ∈ s := by
        intro τ hτ
        refine hball ⟨?_, ht.1.trans hτ.1, hτ.2.trans (min_le_right _ _)⟩
        rw [Metric.mem_ball, Real.dist_eq, abs_lt]
        have := hτ.2.trans (min_le_left _ _)
        constructor <;> [have := hτ.1; skip] <;> linarith
      have hsub : Icc t d ⊆ Icc a b := fun τ hτ => ⟨ht.1.trans hτ.1, hτ.2.trans (min_le_right _ _)⟩
      have hder : ∀ {y : ℝ → E}, (∀ t ∈ Icc a b, HasDerivWithinAt y (f t (y t)) (Icc a b) t) →
          ∀ τ ∈ Ico t d, HasDerivWithinAt y (f τ (y τ)) (Ici τ) τ := by
        intro y hy τ hτ
        have hτb : τ < b := hτ.2.trans_le (min_le_right _ _)
        have := hy τ (hsub ⟨hτ.1, hτ.2.le⟩)
        refine this.mono_of_mem_nhdsWithin ?_
        refine mem_of_superset (Icc_mem_nhdsGE hτb) (Icc_subset_Icc_left (ht.1.trans hτ.1))
      have := ODE_solution_unique_of_mem_Icc_right (v := f) (s := fun _ => s) (K := K) (f := y1) (g := y2)
        (fun τ hτ => (hin τ ⟨hτ.1, hτ.2.le⟩).1) (c1.mono hsub) (hder h1) (fun τ hτ => (hin τ ⟨hτ.1, hτ.2.le⟩).2.1)
        (c2.mono hsub) (hder h2) (fun τ hτ => (hin τ ⟨hτ.1, hτ.2.le⟩).2.2) hteq
      refine mem_of_superset (Ioo_mem_nhdsGT htd) (fun τ hτ => this ⟨hτ.1.le, hτ.2.le⟩)
  exact fun t ht => key ht

omit [NormedSpace ℝ G] in
/-- The same for rates that are locally Lipschitz in a forcing and the state. -/
theorem unique_of_lip {F : G × E → E} {c : ℝ → G} {a b : ℝ} {y1 y2 : ℝ → E} (hc : ContinuousOn c (Icc a b))
    (h1 : ∀ t ∈ Icc a b, HasDerivWithinAt y1 (F (c t, y1 t)) (Icc a b) t)
    (h2 : ∀ t ∈ Icc a b, HasDerivWithinAt y2 (F (c t, y2 t)) (Icc a b) t) (h0 : y1 a = y2 a)
    (hF : ∀ t ∈ Ico a b, ∃ K : NNReal, ∃ s ∈ 𝓝 (c t, y1 t), LipschitzOnWith K F s) : ∀ t ∈ Icc a b, y1 t = y2 t := by
  refine unique_of_local (f := fun t u => F (c t, u)) h1 h2 h0 (fun t ht => ?_)
  obtain ⟨K, s, hs, hL⟩ := hF t ht
  obtain ⟨s1, hs1, s2, hs2, hsub⟩ := mem_nhds_prod_iff.1 hs
  refine ⟨K, s2, hs2, ?_⟩
  have : ∀ᶠ τ in 𝓝[Icc a b] t, c τ ∈ s1 := hc t ⟨ht.1, ht.2.le⟩ hs1
  filter_upwards [this] with τ hτ
  intro x hx y hy
  have := hL (show (c τ, x) ∈ s from hsub ⟨hτ, hx⟩) (show (c τ, y) ∈ s from hsub ⟨hτ, hy⟩)
  simpa [Prod.edist_eq] using this

/-- The same for rates that are continuously differentiable in a forcing and the state. -/
theorem unique_of_contDiff {F : G × E → E} {c : ℝ → G} {a b : ℝ} {y1 y2 : ℝ → E} (hc : ContinuousOn c (Icc a b))
    (h1 : ∀ t ∈ Icc a b, HasDerivWithinAt y1 (F (c t, y1 t)) (Icc a b) t)
    (h2 : ∀ t ∈ Icc a b, HasDerivWithinAt y2 (F (c t, y2 t)) (Icc a b) t) (h0 : y1 a = y2 a)
    (hF : ∀ t ∈ Ico a b, ContDiffAt ℝ 1 F (c t, y1 t)) : ∀ t ∈ Icc a b, y1 t = y2 t :=
  unique_of_lip hc h1 h2 h0 (fun t ht => (hF t ht).exists_lipschitzOnWith)

omit [NormedSpace ℝ G] in
/-- Such an equation has a solution on some interval from where it starts. -/
theorem exists_of_lip [CompleteSpace E] {F : G × E → E} {c : ℝ → G} {a b : ℝ} {x : E} (hab : a < b)
    (hc : ContinuousOn c (Icc a b)) (hF : ∃ K : NNReal, ∃ s ∈ 𝓝 (c a, x), LipschitzOnWith K F s) :
    ∃ d, a < d ∧ d ≤ b ∧ ∃ y : ℝ → E, y a = x ∧ ∀ t ∈ Icc a d, HasDerivWithinAt y (F (c t, y t)) (Icc a d) t := by
  obtain ⟨K, s, hs, hL⟩ := hF
  obtain ⟨s1, hs1, s2, hs2, hsub⟩ := mem_nhds_prod_iff.1 hs
  obtain ⟨R, hR, hR2⟩ := Metric.nhds_basis_closedBall.mem_iff.1 hs2
  have hx : x ∈ s2 := mem_of_mem_nhds hs2
  have hca : c a ∈ s1 := mem_of_mem_nhds hs1
  have hs1' : s1 ∩ Metric.closedBall (c a) 1 ∈ 𝓝 (c a) := inter_mem hs1 (Metric.closedBall_mem_nhds _ one_pos)
  have hev : ∀ᶠ τ in 𝓝[Icc a b] a, c τ ∈ s1 ∩ Metric.closedBall (c a) 1 := hc a ⟨le_rfl, hab.le⟩ hs1'
  obtain ⟨ε, hε, hball⟩ := Metric.mem_nhdsWithin_iff.1 hev
  set L : NNReal := ⟨‖F (c a, x)‖ + K * (1 + R), by positivity⟩ with hLdef
  have hLpos : (0 : ℝ) ≤ L := L.2
  set d := min (min (a + ε / 2) b) (a + R / (L + 1)) with hd
  have hRd : 0 < R / (L + 1 : ℝ) := by positivity
  have had : a < d := lt_min (lt_min (by linarith) hab) (by linarith)
  have hdb : d ≤ b := (min_le_left _ _).trans (min_le_right _ _)
  have hin : ∀ τ ∈ Icc a d, c τ ∈ s1 ∩ Metric.closedBall (c a) 1 := by
    intro τ hτ
    refine hball ⟨?_, hτ.1, hτ.2.trans hdb⟩
    rw [Metric.mem_ball, Real.dist_eq, abs_lt]
    have := hτ.2.trans ((min_le_left _ _).trans (min_le_left _ _))
    constructor <;> [have := hτ.1; skip] <;> linarith
  have hpl : IsPicardLindelof (fun t u => F (c t, u)) (⟨a, ⟨le_rfl, had.le⟩⟩ : Icc a d) x ⟨R, hR.le⟩ 0 L K := by
    refine ⟨fun t ht => ?_, fun u hu => ?_, fun t ht u hu => ?_, ?_⟩
    · intro u hu v hv
      have := hL (show (c t, u) ∈ s from hsub ⟨(hin t ht).1, hR2 hu⟩) (show (c t, v) ∈ s from hsub ⟨(hin t ht).1, hR2 hv⟩)
      simpa [Prod.edist_eq] using this
    · have h1 : ContinuousOn F s := hL.continuousOn
      refine h1.comp ((hc.mono (Icc_subset_Icc_right hdb)).prodMk continuousOn_const) ?_
      exact fun t ht => hsub ⟨(hin t ht).1, hR2 hu⟩
    · have h1 := hL.dist_le_mul _ (show (c t, u) ∈ s from hsub ⟨(hin t ht).1, hR2 hu⟩) _
        (show (c a, x) ∈ s from hsub ⟨hca, hx⟩)
      have h2 : dist (c t, u) (c a, x) ≤ 1 + R := by
        rw [Prod.dist_eq]
        refine max_le ?_ ?_
        · have := (hin t ht).2
          rw [Metric.mem_closedBall] at this
          show dist (c t) (c a) ≤ _
          linarith
        · have : dist u x ≤ R := hu
          show dist u x ≤ _
          linarith
      have h3 := norm_le_norm_add_norm_sub' (F (c t, u)) (F (c a, x))
      rw [dist_eq_norm] at h1
      have h4 := h1.trans (mul_le_mul_of_nonneg_left h2 K.2)
      show ‖F (c t, u)‖ ≤ ‖F (c a, x)‖ + K * (1 + R)
      linarith
    · have h1 : d - a ≤ R / (L + 1) := by
        have : d ≤ a + R / (L + 1) := min_le_right _ _
        linarith
      have h2 : max (d - a) (a - a) = d - a := by
        rw [sub_self]; exact max_eq_left (by linarith)
      show (L : ℝ) * max (d - a) (a - a) ≤ R - 0
      rw [h2, sub_zero]
      calc (L : ℝ) * (d - a) ≤ L * (R / (L + 1)) := mul_le_mul_of_nonneg_left h1 hLpos
        _ ≤ R := by
          rw [mul_div_assoc', div_le_iff₀ (by positivity)]
          nlinarith
  obtain ⟨y, hy0, hy⟩ := hpl.exists_eq_forall_mem_Icc_hasDerivWithinAt₀
  exact ⟨d, had, hdb, y, hy0, hy⟩

theorem exists_of_contDiff [CompleteSpace E] {F : G × E → E} {c : ℝ → G} {a b : ℝ} {x : E} (hab : a < b)
    (hc : ContinuousOn c (Icc a b)) (hF : ContDiffAt ℝ 1 F (c a, x)) :
    ∃ d, a < d ∧ d ≤ b ∧ ∃ y : ℝ → E, y a = x ∧ ∀ t ∈ Icc a d, HasDerivWithinAt y (F (c t, y t)) (Icc a d) t :=
  exists_of_lip hab hc hF.exists_lipschitzOnWith

end WTM
