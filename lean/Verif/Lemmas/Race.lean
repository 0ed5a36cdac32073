import Verif.Lemmas.Surface

/-! Two closed tanks of beads in which only the surface meets the isotherm, started alike: the one with more beads, the faster
film, the faster diffusion or the stronger isotherm is ahead at every time. -/
set_option autoImplicit false
namespace WTM
open BigOperators Set Topology Filter

variable {r : ℕ} {jac : Fin r → ℝ} {B : Fin (r + 1) → Fin (r + 1) → ℝ} {W : Fin (r + 1) → ℝ}

/-- Loading of the surface some time after a unit of mass was put there. -/
noncomputable def kern (β : ℝ) (B : Fin (r + 1) → Fin (r + 1) → ℝ) (W : Fin (r + 1) → ℝ) (t : ℝ) : ℝ :=
  beadFlow β B W (surf W) t (Fin.last r)

theorem kern_deriv (β t : ℝ) : HasDerivAt (kern β B W) (beadL β B W (beadFlow β B W (surf W) t) (Fin.last r)) t :=
  hasDerivAt_pi.1 (beadFlow_deriv (surf W) t) (Fin.last r)

theorem kern_sinks (g : Spec.BeadGrid jac B W) {β : ℝ} (hβ : 0 < β) (t : ℝ) :
    beadL β B W (beadFlow β B W (surf W) t) (Fin.last r) ≤ 0 := by
  rcases Nat.eq_zero_or_pos r with hr | hr
  · subst hr
    simp [beadL]
  · exact (flow_falls g hβ hr t).le

theorem kern_scale (β t : ℝ) : kern β B W t = kern 1 B W (β * t) := by
  have h : beadCL β B W = β • beadCL 1 B W := by
    ext q k
    have e : ∀ k, ∑ l, B k l * (β * q l) = β * ∑ l, B k l * (1 * q l) := by
      intro k
      rw [Finset.mul_sum]
      exact Finset.sum_congr rfl fun l _ => by ring
    show beadL β B W q k = β * beadL 1 B W q k
    simp only [beadL, e]
    split
    · have e1 : ∑ j : Fin r, W j.castSucc * (β * ∑ l, B j.castSucc l * (1 * q l)) =
          β * ∑ j : Fin r, W j.castSucc * ∑ l, B j.castSucc l * (1 * q l) := by
        rw [Finset.mul_sum]
        exact Finset.sum_congr rfl fun l _ => by ring
      rw [e1]
      ring
    · rfl
  unfold kern beadFlow
  rw [h, smul_smul, mul_comm t β]

theorem kern_anti (g : Spec.BeadGrid jac B W) {β1 β2 : ℝ} (hβ : β1 ≤ β2) {t : ℝ} (ht : 0 ≤ t) : kern β2 B W t ≤ kern β1 B W t := by
  have ha : Antitone (kern 1 B W) := by
    refine antitone_of_deriv_nonpos (fun t => (kern_deriv 1 t).differentiableAt) fun t => ?_
    rw [(kern_deriv 1 t).deriv]
    exact kern_sinks g one_pos t
  rw [kern_scale β1, kern_scale β2]
  exact ha (mul_le_mul_of_nonneg_right hβ ht)

theorem kern_strict (g : Spec.BeadGrid jac B W) (hr : 0 < r) {β1 β2 : ℝ} (hβ : β1 < β2) {t : ℝ} (ht : 0 < t) :
    kern β2 B W t < kern β1 B W t := by
  have ha : StrictAnti (kern 1 B W) := by
    refine strictAnti_of_deriv_neg fun t => ?_
    rw [(kern_deriv 1 t).deriv]
    exact flow_falls g one_pos hr t
  rw [kern_scale β1, kern_scale β2]
  exact ha (mul_lt_mul_of_pos_right hβ ht)

section
variable {κ1 κ2 : ℝ → ℝ} {β1 β2 f1 f2 μ1 μ2 T c0 θ : ℝ} {y1 y2 : ℝ → (Fin (r + 1) → ℝ) × ℝ}

/-- While the second tank has been ahead of a share of the first, and has just lost its lead, its surface is loaded less. -/
theorem race_touch (g : Spec.BeadGrid jac B W) (hβ2 : 0 < β2) (hβ : β1 ≤ β2) (hμ1 : 0 < μ1) (hf1 : 0 < f1) (hθ : 0 < θ)
    (hy1 : ∀ t ∈ Icc 0 T, HasDerivWithinAt y1 (tankRhs κ1 0 β1 f1 μ1 B W (y1 t)) (Icc 0 T) t)
    (hy2 : ∀ t ∈ Icc 0 T, HasDerivWithinAt y2 (tankRhs κ2 0 β2 f2 μ2 B W (y2 t)) (Icc 0 T) t)
    (z1 : ∀ k, (y1 0).1 k = 0) (z2 : ∀ k, (y2 0).1 k = 0) (c1 : (y1 0).2 = c0) (c2 : (y2 0).2 = c0)
    (ha : ∀ t ∈ Icc 0 T, κ1 ((y1 t).1 (Fin.last r)) < (y1 t).2) {t : ℝ} (ht : t ∈ Icc 0 T)
    (hist : ∀ s ∈ Icc 0 t, θ * (c0 - (y1 s).2) ≤ c0 - (y2 s).2) (heq : θ * (c0 - (y1 t).2) = c0 - (y2 t).2) :
    μ2 * (y2 t).1 (Fin.last r) ≤ θ * (μ1 * (y1 t).1 (Fin.last r)) ∧
      (β1 < β2 → 0 < r → 0 < t → μ2 * (y2 t).1 (Fin.last r) < θ * (μ1 * (y1 t).1 (Fin.last r))) := by
  have hW := (g.wpos (Fin.last r)).ne'
  have hsub : Icc 0 t ⊆ Icc 0 T := Icc_subset_Icc_right ht.2
  have hz1 : ∀ x : Fin (r + 1) → ℝ, wdot W x (y1 0).1 = 0 := fun x => Finset.sum_eq_zero fun k _ => by rw [z1]; ring
  have hz2 : ∀ x : Fin (r + 1) → ℝ, wdot W x (y2 0).1 = 0 := fun x => Finset.sum_eq_zero fun k _ => by rw [z2]; ring
  let E := fun s => μ2 * wdot W (beadFlow β2 B W (surf W) (t - s)) (y2 s).1 -
    θ * μ1 * wdot W (beadFlow β1 B W (surf W) (t - s)) (y1 s).1 -
    kern β2 B W (t - s) * ((c0 - (y2 s).2) - θ * (c0 - (y1 s).2))
  let E' := fun s => θ * μ1 * (f1 * ((y1 s).2 - κ1 ((y1 s).1 (Fin.last r)))) * (kern β2 B W (t - s) - kern β1 B W (t - s)) +
    beadL β2 B W (beadFlow β2 B W (surf W) (t - s)) (Fin.last r) * ((c0 - (y2 s).2) - θ * (c0 - (y1 s).2))
  have hE : ∀ s ∈ Icc 0 T, HasDerivWithinAt E (E' s) (Icc 0 T) s := by
    intro s hs
    have d1 := (dual_deriv g (beadFlow_deriv (β := β1) (B := B) (W := W) (surf W)) hy1 t hs).const_mul (θ * μ1)
    have d2 := (dual_deriv g (beadFlow_deriv (β := β2) (B := B) (W := W) (surf W)) hy2 t hs).const_mul μ2
    have d3 := (rev_deriv (kern_deriv (B := B) (W := W) β2 (t - s))).hasDerivWithinAt (s := Icc 0 T)
    have d4 := ((tank_parts (hy2 s hs)).2.const_sub c0).sub (((tank_parts (hy1 s hs)).2.const_sub c0).const_mul θ)
    refine ((d2.sub d1).sub (d3.mul d4)).congr_deriv ?_
    show _ = E' s
    simp only [tankRhs, E', kern, Pi.sub_apply]
    ring
  have e0 : E 0 = 0 := by
    simp only [E, hz1, hz2, c1, c2]
    ring
  have et : E t = μ2 * (y2 t).1 (Fin.last r) - θ * (μ1 * (y1 t).1 (Fin.last r)) := by
    simp only [E, sub_self, beadFlow_zero, wdot_surf hW, ← heq]
    ring
  have hcont : ContinuousOn E (Icc 0 t) := fun s hs => (hE s (hsub hs)).continuousWithinAt.mono hsub
  have hder : ∀ s ∈ Ioo 0 t, HasDerivAt E (E' s) s := fun s hs =>
    (hE s (hsub ⟨hs.1.le, hs.2.le⟩)).hasDerivAt (Icc_mem_nhds hs.1 (hs.2.trans_le ht.2))
  have hF : ∀ s ∈ Ioo 0 t, 0 < θ * μ1 * (f1 * ((y1 s).2 - κ1 ((y1 s).1 (Fin.last r)))) := fun s hs =>
    mul_pos (mul_pos hθ hμ1) (mul_pos hf1 (sub_pos.2 (ha s (hsub ⟨hs.1.le, hs.2.le⟩))))
  have hL : ∀ s ∈ Ioo 0 t, beadL β2 B W (beadFlow β2 B W (surf W) (t - s)) (Fin.last r) * ((c0 - (y2 s).2) - θ * (c0 - (y1 s).2)) ≤ 0 :=
    fun s hs => mul_nonpos_of_nonpos_of_nonneg (kern_sinks g hβ2 _) (sub_nonneg.2 (hist s ⟨hs.1.le, hs.2.le⟩))
  constructor
  · have : AntitoneOn E (Icc 0 t) := by
      refine antitoneOn_of_deriv_nonpos (convex_Icc 0 t) hcont (fun s hs => ?_) fun s hs => ?_
      · rw [interior_Icc] at hs
        exact (hder s hs).differentiableAt.differentiableWithinAt
      · rw [interior_Icc] at hs
        rw [(hder s hs).deriv]
        have h1 := mul_nonpos_of_nonneg_of_nonpos (hF s hs).le (sub_nonpos.2 (kern_anti g hβ (by linarith [hs.2] : 0 ≤ t - s)))
        exact add_nonpos h1 (hL s hs)
    have := this (left_mem_Icc.2 ht.1) (right_mem_Icc.2 ht.1) ht.1
    rw [e0, et] at this
    linarith
  · intro hb hr ht0
    have : StrictAntiOn E (Icc 0 t) := by
      refine strictAntiOn_of_deriv_neg (convex_Icc 0 t) hcont fun s hs => ?_
      rw [interior_Icc] at hs
      rw [(hder s hs).deriv]
      have h1 := mul_neg_of_pos_of_neg (hF s hs) (sub_neg.2 (kern_strict g hr hb (by linarith [hs.2] : 0 < t - s)))
      exact add_neg_of_neg_of_nonpos h1 (hL s hs)
    have := this (left_mem_Icc.2 ht.1) (right_mem_Icc.2 ht.1) ht0
    rw [e0, et] at this
    linarith

/-- What the two tanks share. -/
structure Race (κ1 κ2 : ℝ → ℝ) (β1 β2 f1 f2 μ1 μ2 T c0 : ℝ) (jac : Fin r → ℝ) (B : Fin (r + 1) → Fin (r + 1) → ℝ)
    (W : Fin (r + 1) → ℝ) (y1 y2 : ℝ → (Fin (r + 1) → ℝ) × ℝ) : Prop where
  g : Spec.BeadGrid jac B W
  mono : StrictMonoOn κ1 (Ici 0)
  zero : κ1 0 = 0
  weak : ∀ x ≥ 0, κ1 x < c0 → κ2 x ≤ κ1 x
  mono2 : MonotoneOn κ2 (Ici 0)
  hb1 : 0 < β1
  hb : β1 ≤ β2
  hf1 : 0 < f1
  hf : f1 ≤ f2
  hm1 : 0 < μ1
  hm : μ1 ≤ μ2
  hc : 0 < c0
  run1 : ∀ t ∈ Icc 0 T, HasDerivWithinAt y1 (tankRhs κ1 0 β1 f1 μ1 B W (y1 t)) (Icc 0 T) t
  run2 : ∀ t ∈ Icc 0 T, HasDerivWithinAt y2 (tankRhs κ2 0 β2 f2 μ2 B W (y2 t)) (Icc 0 T) t
  z1 : ∀ k, (y1 0).1 k = 0
  z2 : ∀ k, (y2 0).1 k = 0
  hc1 : (y1 0).2 = c0
  hc2 : (y2 0).2 = c0
  falls1 : StrictAntiOn (fun t => (y1 t).2) (Icc 0 T)
  above1 : ∀ t ∈ Icc 0 T, κ1 ((y1 t).1 (Fin.last r)) < (y1 t).2
  load1 : ∀ t ∈ Ioc 0 T, 0 < (y1 t).1 (Fin.last r)
  load2 : ∀ t ∈ Ioc 0 T, 0 < (y2 t).1 (Fin.last r)

variable (R : Race κ1 κ2 β1 β2 f1 f2 μ1 μ2 T c0 jac B W y1 y2)
include R

theorem Race.le0 {t : ℝ} (ht : t ∈ Icc 0 T) : (y1 t).2 ≤ c0 := by
  rw [← R.hc1]
  exact R.falls1.antitoneOn ⟨le_rfl, ht.1.trans ht.2⟩ ht ht.1

theorem Race.q1 {t : ℝ} (ht : t ∈ Icc 0 T) : 0 ≤ (y1 t).1 (Fin.last r) := by
  rcases ht.1.lt_or_eq with h | h
  · exact (R.load1 t ⟨h, ht.2⟩).le
  · rw [← h]; exact (R.z1 _).ge

theorem Race.q2 {t : ℝ} (ht : t ∈ Icc 0 T) : 0 ≤ (y2 t).1 (Fin.last r) := by
  rcases ht.1.lt_or_eq with h | h
  · exact (R.load2 t ⟨h, ht.2⟩).le
  · rw [← h]; exact (R.z2 _).ge

/-- Surface concentrations of the two at such a time. -/
theorem Race.surface {t : ℝ} (ht : t ∈ Icc 0 T) (hθ : 0 < θ) (hθ1 : θ ≤ 1)
    (hist : ∀ s ∈ Icc 0 t, θ * (c0 - (y1 s).2) ≤ c0 - (y2 s).2) (heq : θ * (c0 - (y1 t).2) = c0 - (y2 t).2) :
    κ2 ((y2 t).1 (Fin.last r)) ≤ κ1 ((y1 t).1 (Fin.last r)) ∧
      ((μ1 < μ2 ∨ (β1 < β2 ∧ 0 < r) ∨ ∀ x > 0, κ1 x < c0 → κ2 x < κ1 x) → 0 < t →
        κ2 ((y2 t).1 (Fin.last r)) < κ1 ((y1 t).1 (Fin.last r))) := by
  have hm2 : 0 < μ2 := R.hm1.trans_le R.hm
  obtain ⟨h1, h2⟩ := race_touch R.g (R.hb1.trans_le R.hb) R.hb R.hm1 R.hf1 hθ R.run1 R.run2 R.z1 R.z2 R.hc1 R.hc2 R.above1 ht hist heq
  have hq1 := R.q1 ht
  have hq2 := R.q2 ht
  have hlt : κ1 ((y1 t).1 (Fin.last r)) < c0 := (R.above1 t ht).trans_le (R.le0 ht)
  set a := (y1 t).1 (Fin.last r) with had
  set b := (y2 t).1 (Fin.last r) with hbd
  have h3 : θ * (μ1 * a) ≤ μ1 * a := mul_le_of_le_one_left (mul_nonneg R.hm1.le hq1) hθ1
  have h4 : μ1 * a ≤ μ2 * a := mul_le_mul_of_nonneg_right R.hm hq1
  have hba : b ≤ a := le_of_mul_le_mul_left (h1.trans (h3.trans h4)) hm2
  have hk2 : ∀ x, 0 ≤ x → x ≤ a → κ2 x ≤ κ1 x := fun x hx hxa =>
    R.weak x hx ((R.mono.monotoneOn hx hq1 hxa).trans_lt hlt)
  refine ⟨(hk2 b hq2 hba).trans (R.mono.monotoneOn hq2 hq1 hba), fun hs ht0 => ?_⟩
  have ha0 : 0 < a := R.load1 t ⟨ht0, ht.2⟩
  have hb0 : 0 < b := R.load2 t ⟨ht0, ht.2⟩
  rcases hs with hs | ⟨hs, hr⟩ | hs
  · have h5 : μ1 * a < μ2 * a := mul_lt_mul_of_pos_right hs ha0
    have : b < a := lt_of_mul_lt_mul_left ((h1.trans h3).trans_lt h5) hm2.le
    exact (hk2 b hq2 hba).trans_lt (R.mono hq2 hq1 this)
  · have : b < a := lt_of_mul_lt_mul_left ((h2 hs hr ht0).trans_le (h3.trans h4)) hm2.le
    exact (hk2 b hq2 hba).trans_lt (R.mono hq2 hq1 this)
  · exact (R.mono2 hq2 hq1 hba).trans_lt (hs a ha0 hlt)

/-- The second is ahead of every share of the first. -/
theorem Race.share (hθ : 0 < θ) (hθ1 : θ < 1) : ∀ t ∈ Icc 0 T, θ * (c0 - (y1 t).2) ≤ c0 - (y2 t).2 := by
  by_contra hcon
  push Not at hcon
  obtain ⟨t1, ht1, hlt1⟩ := hcon
  let S := {t | t ∈ Icc 0 T ∧ c0 - (y2 t).2 < θ * (c0 - (y1 t).2)}
  have hne : S.Nonempty := ⟨t1, ht1, hlt1⟩
  have hbdd : BddBelow S := ⟨0, fun t ht => ht.1.1⟩
  set τ := sInf S with hτd
  have hτ0 : 0 ≤ τ := le_csInf hne fun t ht => ht.1.1
  have hτ1 : τ ≤ t1 := csInf_le hbdd ⟨ht1, hlt1⟩
  have hτ : τ ∈ Icc 0 T := ⟨hτ0, hτ1.trans ht1.2⟩
  let D := fun t => (c0 - (y2 t).2) - θ * (c0 - (y1 t).2)
  have hD : ∀ t ∈ Icc 0 T, HasDerivWithinAt D (μ2 * (f2 * ((y2 t).2 - κ2 ((y2 t).1 (Fin.last r)))) -
      θ * (μ1 * (f1 * ((y1 t).2 - κ1 ((y1 t).1 (Fin.last r)))))) (Icc 0 T) t := by
    intro t ht
    refine (((tank_parts (R.run2 t ht)).2.const_sub c0).sub (((tank_parts (R.run1 t ht)).2.const_sub c0).const_mul θ)).congr_deriv ?_
    simp only [tankRhs]
    ring
  have hbef : ∀ s ∈ Ico 0 τ, 0 ≤ D s := by
    intro s hs
    by_contra hn
    have : s ∈ S := ⟨⟨hs.1, hs.2.le.trans hτ.2⟩, by simp only [D] at hn; linarith⟩
    exact absurd (csInf_le hbdd this) (not_le.2 hs.2)
  have hDτ : 0 ≤ D τ := by
    rcases hτ0.lt_or_eq with h | h
    · have hlim : Tendsto D (𝓝[Ico 0 τ] τ) (𝓝 (D τ)) :=
        (hD τ hτ).continuousWithinAt.mono_left (nhdsWithin_mono _ fun s hs => ⟨hs.1, hs.2.le.trans hτ.2⟩)
      have : (𝓝[Ico 0 τ] τ).NeBot := right_nhdsWithin_Ico_neBot h
      refine ge_of_tendsto hlim ?_
      filter_upwards [self_mem_nhdsWithin] with s hs
      exact hbef s hs
    · rw [← h]
      simp only [D, R.hc1, R.hc2]
      linarith
  have hτS : τ ∉ S := fun h => by
    have := h.2
    simp only [D] at hDτ
    linarith
  have hτt : τ < t1 := lt_of_le_of_ne hτ1 fun h => hτS (by rw [h]; exact ⟨ht1, hlt1⟩)
  have hfreq : ∃ᶠ s in 𝓝[Ioc τ T] τ, D s < 0 := by
    rw [frequently_iff]
    intro U hU
    rw [mem_nhdsWithin] at hU
    obtain ⟨O, hO, hτO, hOU⟩ := hU
    obtain ⟨ε, hε, hball⟩ := Metric.isOpen_iff.1 hO τ hτO
    obtain ⟨s, hs, hsτ⟩ := exists_lt_of_csInf_lt hne (show sInf S < τ + ε by linarith)
    have h1 : τ < s := lt_of_le_of_ne (csInf_le hbdd hs) fun h => hτS (by rw [h]; exact hs)
    refine ⟨s, hOU ⟨hball ?_, h1, hs.1.2⟩, ?_⟩
    · rw [Metric.mem_ball, Real.dist_eq, abs_of_pos (by linarith)]
      linarith
    · have := hs.2
      simp only [D]
      linarith
  have hsub : Ioc τ T ⊆ Icc 0 T := fun s hs => ⟨hτ0.trans hs.1.le, hs.2⟩
  have heq : D τ = 0 := by
    refine le_antisymm ?_ hDτ
    have hlim : Tendsto D (𝓝[Ioc τ T] τ) (𝓝 (D τ)) := (hD τ hτ).continuousWithinAt.mono_left (nhdsWithin_mono _ hsub)
    exact le_of_tendsto_of_frequently hlim (hfreq.mono fun s hs => hs.le)
  have hsf := (R.surface hτ hθ hθ1.le (fun s hs => by
    rcases hs.2.lt_or_eq with h | h
    · have := hbef s ⟨hs.1, h⟩
      simp only [D] at this
      linarith
    · rw [h]
      simp only [D] at hDτ
      linarith) (by simp only [D] at heq; linarith)).1
  -- the rate at that time
  have hrate : 0 < μ2 * (f2 * ((y2 τ).2 - κ2 ((y2 τ).1 (Fin.last r)))) - θ * (μ1 * (f1 * ((y1 τ).2 - κ1 ((y1 τ).1 (Fin.last r))))) := by
    have h1 := sub_pos.2 (R.above1 τ hτ)
    have h2 : (y1 τ).2 - κ1 ((y1 τ).1 (Fin.last r)) ≤ (y2 τ).2 - κ2 ((y2 τ).1 (Fin.last r)) := by
      have h3 : (y1 τ).2 ≤ (y2 τ).2 := by
        simp only [D] at heq
        have := mul_le_of_le_one_left (sub_nonneg.2 (R.le0 hτ)) hθ1.le
        linarith
      linarith
    have h4 : μ1 * (f1 * ((y1 τ).2 - κ1 ((y1 τ).1 (Fin.last r)))) ≤ μ2 * (f2 * ((y2 τ).2 - κ2 ((y2 τ).1 (Fin.last r)))) :=
      mul_le_mul R.hm (mul_le_mul R.hf h2 h1.le (R.hf1.le.trans R.hf)) (mul_nonneg R.hf1.le h1.le) (R.hm1.le.trans R.hm)
    have h5 : θ * (μ1 * (f1 * ((y1 τ).2 - κ1 ((y1 τ).1 (Fin.last r))))) < μ1 * (f1 * ((y1 τ).2 - κ1 ((y1 τ).1 (Fin.last r)))) :=
      mul_lt_of_lt_one_left (mul_pos R.hm1 (mul_pos R.hf1 h1)) hθ1
    linarith
  have hsl := (hD τ hτ).mono (show insert τ (Ioc τ T) ⊆ Icc 0 T from insert_subset hτ hsub)
  rw [hasDerivWithinAt_iff_tendsto_slope] at hsl
  have e3 : insert τ (Ioc τ T) \ {τ} = Ioc τ T := by
    ext s
    simp only [Set.mem_sdiff, mem_insert_iff, mem_singleton_iff, mem_Ioc]
    constructor
    · rintro ⟨h | h, h'⟩
      · exact absurd h h'
      · exact h
    · exact fun h => ⟨Or.inr h, h.1.ne'⟩
  rw [e3] at hsl
  have hev := hsl.eventually (lt_mem_nhds hrate)
  obtain ⟨s, hs1, hs2, hs3⟩ := (hfreq.and_eventually (hev.and self_mem_nhdsWithin)).exists
  rw [slope_def_field, heq, sub_zero] at hs2
  have : D s / (s - τ) < 0 := div_neg_of_neg_of_pos hs1 (by linarith [hs3.1])
  linarith

/-- The second tank is never behind. -/
theorem Race.ahead : ∀ t ∈ Icc 0 T, (y2 t).2 ≤ (y1 t).2 := by
  intro t ht
  have h0 := sub_nonneg.2 (R.le0 ht)
  have hlim : Tendsto (fun θ : ℝ => θ * (c0 - (y1 t).2)) (𝓝[Ioo 0 1] 1) (𝓝 (1 * (c0 - (y1 t).2))) :=
    (tendsto_id.mul_const _).mono_left nhdsWithin_le_nhds
  have : (𝓝[Ioo (0:ℝ) 1] 1).NeBot := right_nhdsWithin_Ioo_neBot one_pos
  have h1 : 1 * (c0 - (y1 t).2) ≤ c0 - (y2 t).2 := by
    refine le_of_tendsto hlim ?_
    filter_upwards [self_mem_nhdsWithin] with θ hθ
    exact R.share hθ.1 hθ.2 t ht
  linarith

/-- With a real advantage it is ahead at every time after the start. -/
theorem Race.wins (h : μ1 < μ2 ∨ f1 < f2 ∨ (β1 < β2 ∧ 0 < r) ∨ ∀ x > 0, κ1 x < c0 → κ2 x < κ1 x) :
    ∀ t ∈ Ioc 0 T, (y2 t).2 < (y1 t).2 := by
  intro t ht
  have ht' : t ∈ Icc 0 T := ⟨ht.1.le, ht.2⟩
  refine lt_of_le_of_ne (R.ahead t ht') fun heq => ?_
  obtain ⟨hs1, hs2⟩ := R.surface ht' one_pos le_rfl (fun s hs => by
    have := R.ahead s ⟨hs.1, hs.2.trans ht.2⟩
    linarith) (by linarith)
  have h1 := sub_pos.2 (R.above1 t ht')
  have h2 : (y1 t).2 - κ1 ((y1 t).1 (Fin.last r)) ≤ (y2 t).2 - κ2 ((y2 t).1 (Fin.last r)) := by linarith
  have hm2 : 0 < μ2 := R.hm1.trans_le R.hm
  have hf2 : 0 < f2 := R.hf1.trans_le R.hf
  have hrate : μ1 * (f1 * ((y1 t).2 - κ1 ((y1 t).1 (Fin.last r)))) < μ2 * (f2 * ((y2 t).2 - κ2 ((y2 t).1 (Fin.last r)))) := by
    have a1 : f1 * ((y1 t).2 - κ1 ((y1 t).1 (Fin.last r))) ≤ f2 * ((y2 t).2 - κ2 ((y2 t).1 (Fin.last r))) :=
      mul_le_mul R.hf h2 h1.le hf2.le
    have a0 := mul_pos R.hf1 h1
    have weakest : ∀ {x}, f1 * ((y1 t).2 - κ1 ((y1 t).1 (Fin.last r))) < x → μ1 * (f1 * ((y1 t).2 - κ1 ((y1 t).1 (Fin.last r)))) < μ2 * x :=
      fun {x} hx => mul_lt_mul' R.hm hx a0.le hm2
    rcases h with h | h | h
    · exact mul_lt_mul h a1 a0 hm2.le
    · exact weakest ((mul_lt_mul_of_pos_right h h1).trans_le (mul_le_mul_of_nonneg_left h2 hf2.le))
    · have h3 := hs2 (Or.inr h) ht.1
      refine weakest ((mul_le_mul_of_nonneg_right R.hf h1.le).trans_lt (mul_lt_mul_of_pos_left ?_ hf2))
      linarith
  have hsub : Icc 0 t ⊆ Icc 0 T := Icc_subset_Icc_right ht.2
  have hd := (((tank_parts (R.run1 t ht')).2).sub (tank_parts (R.run2 t ht')).2).mono hsub
  rw [hasDerivWithinAt_iff_tendsto_slope, Icc_sdiff_right] at hd
  have : (𝓝[Ico 0 t] t).NeBot := right_nhdsWithin_Ico_neBot ht.1
  have hle := le_of_tendsto hd (b := 0) (by
    filter_upwards [self_mem_nhdsWithin] with s hs
    rw [slope_def_field]
    have h3 := R.ahead s ⟨hs.1, hs.2.le.trans ht.2⟩
    have h4 := hs.2
    refine div_nonpos_of_nonneg_of_nonpos ?_ (by linarith)
    simp only [Pi.sub_apply]
    linarith)
  simp only [tankRhs] at hle
  linarith

end
end WTM
