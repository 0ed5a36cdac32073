import Verif.Props.PacLimit

/-! A closed tank of beads with an isotherm that rises everywhere, also below zero. -/
set_option autoImplicit false
namespace WTM
open BigOperators Set Topology Filter

variable {r : ℕ}

/-- An isotherm on the whole line: concentration `κ` over a loading and its inverse `qs`. -/
structure LineIso (κ qs : ℝ → ℝ) : Prop where
  lip : LocallyLipschitz κ
  cqs : Continuous qs
  zero : κ 0 = 0
  mono : StrictMono κ
  inv : ∀ c, κ (qs c) = c

section
variable {κ qs : ℝ → ℝ} {α β f μ : ℝ} {jac : Fin r → ℝ} {B : Fin (r + 1) → Fin (r + 1) → ℝ} {W : Fin (r + 1) → ℝ}

theorem rhs_lip (h : LocallyLipschitz κ) (B : Fin (r + 1) → Fin (r + 1) → ℝ) (W : Fin (r + 1) → ℝ) :
    LocallyLipschitz (tankRhs κ α β f μ B W) := by
  have hq : ∀ k, LocallyLipschitz fun u : (Fin (r + 1) → ℝ) × ℝ => u.1 k := by
    intro k
    have : ContDiff ℝ 1 fun u : (Fin (r + 1) → ℝ) × ℝ => u.1 k := by fun_prop
    exact this.locallyLipschitz
  have hc : LocallyLipschitz fun u : (Fin (r + 1) → ℝ) × ℝ => u.2 := LipschitzWith.prod_snd.locallyLipschitz
  have hκ : ∀ k, LocallyLipschitz fun u : (Fin (r + 1) → ℝ) × ℝ => κ (u.1 k) := fun k => h.comp (hq k)
  have hF : LocallyLipschitz fun u : (Fin (r + 1) → ℝ) × ℝ => f * (u.2 - κ (u.1 (Fin.last r))) :=
    lip_mul (lip_const _) (lip_sub hc (hκ _))
  have hr : ∀ k, LocallyLipschitz fun u : (Fin (r + 1) → ℝ) × ℝ => ∑ l, B k l * tankPsi κ α β (u.1 l) := by
    intro k
    unfold tankPsi
    exact lip_sum _ fun l _ => lip_mul (lip_const _) (lip_add (lip_mul (lip_const _) (hκ l)) (lip_mul (lip_const _) (hq l)))
  refine LocallyLipschitz.prodMk (lip_pi fun k => ?_) (lip_neg (lip_mul (lip_const _) hF))
  by_cases hk : k = Fin.last r
  · simp only [if_pos hk]
    exact lip_div (lip_sub hF (lip_sum _ fun j _ => lip_mul (lip_const _) (hr _))) _
  · simp only [if_neg hk]
    exact hr k

theorem line_lip (h : LineIso κ qs) (B : Fin (r + 1) → Fin (r + 1) → ℝ) (W : Fin (r + 1) → ℝ) :
    LocallyLipschitz (tankRhs κ α β f μ B W) := rhs_lip h.lip B W

theorem line_film (h : LineIso κ qs) (hα : 0 ≤ α) (hβ : 0 < β) (c q : ℝ) :
    0 ≤ (c - κ q) * (α * c + β * qs c - tankPsi κ α β q) ∧
      ((c - κ q) * (α * c + β * qs c - tankPsi κ α β q) = 0 → c = κ q) := by
  have hi := h.inv c
  have e : α * c + β * qs c - tankPsi κ α β q = α * (c - κ q) + β * (qs c - q) := by unfold tankPsi; ring
  rw [e]
  rcases lt_trichotomy c (κ q) with hlt | heq | hlt
  · have hs : qs c < q := h.mono.lt_iff_lt.1 (by rw [hi]; exact hlt)
    have h1 : α * (c - κ q) + β * (qs c - q) < 0 := by
      have := mul_nonneg hα (sub_nonneg.2 hlt.le)
      have := mul_pos hβ (sub_pos.2 hs)
      nlinarith
    have h2 := mul_pos_of_neg_of_neg (sub_neg.2 hlt) h1
    exact ⟨h2.le, fun h0 => absurd h0 h2.ne'⟩
  · rw [heq, sub_self, zero_mul]
    exact ⟨le_rfl, fun _ => rfl⟩
  · have hs : q < qs c := h.mono.lt_iff_lt.1 (by rw [hi]; exact hlt)
    have h1 : 0 < α * (c - κ q) + β * (qs c - q) := by
      have := mul_nonneg hα (sub_nonneg.2 hlt.le)
      have := mul_pos hβ (sub_pos.2 hs)
      linarith
    have h2 := mul_pos (sub_pos.2 hlt) h1
    exact ⟨h2.le, fun h0 => absurd h0 h2.ne'⟩

theorem line_diss_nonneg (g : Spec.BeadGrid jac B W) (h : LineIso κ qs) (hα : 0 ≤ α) (hβ : 0 < β) (hf : 0 < f)
    (u : (Fin (r + 1) → ℝ) × ℝ) : 0 ≤ tankDiss κ qs α β f jac W u :=
  add_nonneg (c205_rough g _).1 (mul_nonneg hf.le (line_film h hα hβ _ _).1)

theorem line_diss_zero (g : Spec.BeadGrid jac B W) (h : LineIso κ qs) (hα : 0 ≤ α) (hβ : 0 < β) (hf : 0 < f)
    {u : (Fin (r + 1) → ℝ) × ℝ} (h0 : tankDiss κ qs α β f jac W u = 0) :
    (∀ k, u.1 k = u.1 (Fin.last r)) ∧ u.2 = κ (u.1 (Fin.last r)) := by
  have h1 := c205_rough g (fun k => tankPsi κ α β (u.1 k))
  have h2 := line_film h hα hβ u.2 (u.1 (Fin.last r))
  have h3 := mul_nonneg hf.le h2.1
  unfold tankDiss at h0
  have e1 : Spec.roughness jac W (fun k => tankPsi κ α β (u.1 k)) = 0 := by linarith [h1.1]
  have e2 : f * ((u.2 - κ (u.1 (Fin.last r))) * (α * u.2 + β * qs u.2 - tankPsi κ α β (u.1 (Fin.last r)))) = 0 := by
    linarith [h1.1]
  refine ⟨fun k => ?_, h2.2 ((mul_eq_zero.1 e2).resolve_left hf.ne')⟩
  have h4 := h1.2.1 e1 k (Fin.last r)
  have hψ : StrictMono (tankPsi κ α β) := by
    intro a b hab
    unfold tankPsi
    have := mul_le_mul_of_nonneg_left (h.mono hab).le hα
    have := mul_lt_mul_of_pos_left hab hβ
    linarith
  exact hψ.injective h4

variable {S : Set ℝ} {y : ℝ → (Fin (r + 1) → ℝ) × ℝ}

theorem lineV_deriv (g : Spec.BeadGrid jac B W) (h : LineIso κ qs) (hμ : μ ≠ 0) {t : ℝ}
    (hy : HasDerivWithinAt y (tankRhs κ α β f μ B W (y t)) S t) :
    HasDerivWithinAt (fun t => tankV κ qs α β μ W (y t)) (-tankDiss κ qs α β f jac W (y t)) S t := by
  rw [← tank_rate g hμ]
  obtain ⟨h1, h2⟩ := tank_parts hy
  have hI : ∀ φ : ℝ → ℝ, Continuous φ → ∀ x, HasDerivAt (fun x => ∫ s in (0:ℝ)..x, φ s) (φ x) x :=
    fun φ hφ x => (hφ.integral_hasStrictDerivAt 0 x).hasDerivAt
  unfold tankV
  refine HasDerivWithinAt.add (HasDerivWithinAt.fun_sum fun k _ => ?_) (HasDerivWithinAt.const_mul _ ?_)
  · refine HasDerivWithinAt.const_mul _ ?_
    have e1 := ((hI κ h.lip.continuous ((y t).1 k)).comp_hasDerivWithinAt t (h1 k)).const_mul α
    have e2 := ((h1 k).pow 2).const_mul (β / 2)
    refine HasDerivWithinAt.congr_deriv (e1.add e2) ?_
    unfold tankPsi
    simp
    ring
  · have e1 := ((hI qs h.cqs ((y t).2)).comp_hasDerivWithinAt t h2).const_mul β
    have e2 := (h2.pow 2).const_mul (α / 2)
    refine HasDerivWithinAt.congr_deriv (e2.add e1) ?_
    simp
    ring

theorem int_nonneg_of_sign {φ : ℝ → ℝ} (hp : ∀ x, 0 ≤ x → 0 ≤ φ x) (hn : ∀ x, x ≤ 0 → φ x ≤ 0) (q : ℝ) :
    0 ≤ ∫ s in (0:ℝ)..q, φ s := by
  rcases le_total 0 q with hq | hq
  · exact intervalIntegral.integral_nonneg hq fun s hs => hp s hs.1
  · rw [intervalIntegral.integral_symm, ← intervalIntegral.integral_neg]
    exact intervalIntegral.integral_nonneg hq fun s hs => neg_nonneg.2 (hn s hs.2)

theorem LineIso.qs_mono (h : LineIso κ qs) : Monotone qs := by
  intro a b hab
  exact h.mono.le_iff_le.1 (by rw [h.inv, h.inv]; exact hab)

theorem LineIso.qs_zero (h : LineIso κ qs) : qs 0 = 0 := h.mono.injective (by rw [h.inv, h.zero])

theorem lineV_ge (h : LineIso κ qs) (hα : 0 ≤ α) (hβ : 0 < β) (hμ : 0 < μ) (hW : ∀ k, 0 < W k)
    (u : (Fin (r + 1) → ℝ) × ℝ) : ∑ k, W k * (β / 2 * u.1 k ^ 2) ≤ tankV κ qs α β μ W u := by
  have h1 : ∀ q, 0 ≤ ∫ s in (0:ℝ)..q, κ s :=
    int_nonneg_of_sign (fun x hx => by rw [← h.zero]; exact h.mono.monotone hx)
      (fun x hx => by rw [← h.zero]; exact h.mono.monotone hx)
  have h2 : 0 ≤ ∫ s in (0:ℝ)..u.2, qs s :=
    int_nonneg_of_sign (fun x hx => by rw [← h.qs_zero]; exact h.qs_mono hx)
      (fun x hx => by rw [← h.qs_zero]; exact h.qs_mono hx) _
  have h3 : 0 ≤ 1 / μ * (α / 2 * u.2 ^ 2 + β * ∫ s in (0:ℝ)..u.2, qs s) := by positivity
  unfold tankV
  have h4 : ∑ k, W k * (β / 2 * u.1 k ^ 2) ≤ ∑ k, W k * (α * (∫ s in (0:ℝ)..u.1 k, κ s) + β / 2 * u.1 k ^ 2) := by
    refine Finset.sum_le_sum fun k _ => mul_le_mul_of_nonneg_left ?_ (hW k).le
    have := mul_nonneg hα (h1 (u.1 k))
    linarith
  linarith

theorem line_bound (g : Spec.BeadGrid jac B W) (h : LineIso κ qs) (hα : 0 ≤ α) (hβ : 0 < β) (hf : 0 < f) (hμ : 0 < μ)
    {T : ℝ} (hT : 0 ≤ T) (hy : ∀ t ∈ Icc 0 T, HasDerivWithinAt y (tankRhs κ α β f μ B W (y t)) (Icc 0 T) t) :
    tankM μ W (y T) = tankM μ W (y 0) ∧ tankV κ qs α β μ W (y T) ≤ tankV κ qs α β μ W (y 0) ∧
      ‖y T‖ ≤ tankR κ qs α β μ W (y 0) := by
  have hVd := fun t (ht : t ∈ Icc 0 T) => lineV_deriv g h hμ.ne' (hy t ht)
  have hMd := fun t (ht : t ∈ Icc 0 T) => tankM_deriv (g.wpos (Fin.last r)).ne' hμ.ne' (hy t ht)
  have hV : tankV κ qs α β μ W (y T) ≤ tankV κ qs α β μ W (y 0) := by
    refine antitoneOn_of_deriv_nonpos (f := fun t => tankV κ qs α β μ W (y t)) (convex_Icc 0 T)
      (fun t ht => (hVd t ht).continuousWithinAt) (fun t ht => ?_) (fun t ht => ?_) ⟨le_rfl, hT⟩ ⟨hT, le_rfl⟩ hT
    · rw [interior_Icc] at ht
      exact ((hVd t (Ioo_subset_Icc_self ht)).hasDerivAt (Icc_mem_nhds ht.1 ht.2)).differentiableAt.differentiableWithinAt
    · rw [interior_Icc] at ht
      rw [((hVd t (Ioo_subset_Icc_self ht)).hasDerivAt (Icc_mem_nhds ht.1 ht.2)).deriv]
      have := line_diss_nonneg (f := f) g h hα hβ hf (y t)
      linarith
  have hM : tankM μ W (y T) = tankM μ W (y 0) := by
    rcases eq_or_lt_of_le hT with hT0 | hT0
    · rw [← hT0]
    · exact constant_of_has_deriv_right_zero (f := fun t => tankM μ W (y t)) (fun t ht => (hMd t ht).continuousWithinAt)
        (fun t ht => ((hMd t ⟨ht.1, ht.2.le⟩).mono_of_mem_nhdsWithin (Icc_mem_nhdsGE_of_mem ht))) T ⟨hT, le_rfl⟩
  refine ⟨hM, hV, ?_⟩
  have hge := (lineV_ge h hα hβ hμ g.wpos (y T)).trans hV
  have hV0 : 0 ≤ tankV κ qs α β μ W (y 0) := by
    refine le_trans (Finset.sum_nonneg fun k _ => ?_) hge
    have := g.wpos k
    positivity
  have hsum1 : 0 ≤ ∑ k, 1 / W k := Finset.sum_nonneg fun k _ => (one_div_pos.2 (g.wpos k)).le
  have hsum2 : 0 ≤ ∑ k, W k := Finset.sum_nonneg fun k _ => (g.wpos k).le
  set V0 := tankV κ qs α β μ W (y 0) with hV0d
  set Q := 1 + 2 / β * V0 * ∑ k, 1 / W k with hQ
  have hQ0 : 0 ≤ Q := by positivity
  have hq : ∀ k, |(y T).1 k| ≤ Q := by
    intro k
    have hw := g.wpos k
    have h1 : W k * (β / 2 * (y T).1 k ^ 2) ≤ V0 := by
      refine le_trans ?_ hge
      exact Finset.single_le_sum (f := fun k => W k * (β / 2 * (y T).1 k ^ 2)) (fun j _ => by have := g.wpos j; positivity)
        (Finset.mem_univ k)
    have h2 : (y T).1 k ^ 2 ≤ 2 / β * V0 * (1 / W k) := by
      have : 2 / β * V0 * (1 / W k) = V0 / (W k * (β / 2)) := by field_simp
      rw [this, le_div_iff₀ (by positivity)]
      linarith
    have h3 : 2 / β * V0 * (1 / W k) ≤ 2 / β * V0 * ∑ k, 1 / W k := by
      refine mul_le_mul_of_nonneg_left ?_ (by positivity)
      exact Finset.single_le_sum (f := fun k => 1 / W k) (fun j _ => (one_div_pos.2 (g.wpos j)).le) (Finset.mem_univ k)
    have h4 : |(y T).1 k| ≤ 1 + (y T).1 k ^ 2 := by
      rw [← sq_abs]
      nlinarith [sq_nonneg (|(y T).1 k| - 1), abs_nonneg ((y T).1 k)]
    linarith
  have hcT : |(y T).2| ≤ μ * (|tankM μ W (y 0)| + Q * ∑ k, W k) := by
    have h1 : (y T).2 = μ * (tankM μ W (y T) - ∑ k, W k * (y T).1 k) := by
      unfold tankM; field_simp; ring
    rw [h1, hM, abs_mul, abs_of_pos hμ]
    refine mul_le_mul_of_nonneg_left ?_ hμ.le
    have h3 : |∑ k, W k * (y T).1 k| ≤ Q * ∑ k, W k := by
      refine (Finset.abs_sum_le_sum_abs _ _).trans ?_
      rw [Finset.mul_sum]
      refine Finset.sum_le_sum fun k _ => ?_
      rw [abs_mul, abs_of_pos (g.wpos k), mul_comm]
      exact mul_le_mul_of_nonneg_right (hq k) (g.wpos k).le
    exact (abs_sub _ _).trans (by linarith)
  have hR : tankR κ qs α β μ W (y 0) = Q + μ * (|tankM μ W (y 0)| + Q * ∑ k, W k) := rfl
  have hR2 : 0 ≤ μ * (|tankM μ W (y 0)| + Q * ∑ k, W k) := by positivity
  rw [hR, Prod.norm_def]
  refine max_le ?_ ?_
  · rw [pi_norm_le_iff_of_nonneg (by positivity)]
    intro k
    rw [Real.norm_eq_abs]
    linarith [hq k]
  · rw [Real.norm_eq_abs]
    linarith

/-- At most one equilibrium holds a given content. -/
theorem line_equilibrium (h : LineIso κ qs) (hμ : 0 < μ) {s : ℝ} (hs : 0 < s) {q q' : ℝ}
    (he : s * q + 1 / μ * κ q = s * q' + 1 / μ * κ q') : q = q' := by
  have hmono : StrictMono fun q => s * q + 1 / μ * κ q := by
    intro a b hab
    have h1 := mul_lt_mul_of_pos_left hab hs
    have h2 := mul_le_mul_of_nonneg_left (h.mono hab).le (one_div_pos.2 hμ).le
    show s * a + 1 / μ * κ a < s * b + 1 / μ * κ b
    linarith
  exact hmono.injective he

/-- From every state the tank has a run for all time. -/
theorem line_global (g : Spec.BeadGrid jac B W) (h : LineIso κ qs) (hα : 0 ≤ α) (hβ : 0 < β) (hf : 0 < f) (hμ : 0 < μ)
    (u : (Fin (r + 1) → ℝ) × ℝ) :
    ∃ y : ℝ → (Fin (r + 1) → ℝ) × ℝ, y 0 = u ∧
      ∀ t ≥ 0, HasDerivWithinAt y (tankRhs κ α β f μ B W (y t)) (Ici 0) t := by
  refine global_auto (R := tankR κ qs α β μ W u) (line_lip h B W) (fun T hT y hy0 hy => ?_)
  have := (line_bound g h hα hβ hf hμ hT hy).2.2
  rwa [hy0] at this

/-- Every run tends to the equilibrium of its content. -/
theorem line_limit (g : Spec.BeadGrid jac B W) (h : LineIso κ qs) (hα : 0 ≤ α) (hβ : 0 < β) (hf : 0 < f) (hμ : 0 < μ)
    (hy : ∀ t ≥ 0, HasDerivWithinAt y (tankRhs κ α β f μ B W (y t)) (Ici 0) t) {q : ℝ}
    (hq : (∑ k, W k) * q + 1 / μ * κ q = tankM μ W (y 0)) : Tendsto y atTop (𝓝 (fun _ => q, κ q)) := by
  have hb := fun (T : ℝ) (hT : 0 ≤ T) => line_bound g h hα hβ hf hμ hT
    (fun t ht => (hy t ht.1).mono Icc_subset_Ici_self)
  have hκ := h.lip.continuous
  have hqs := h.cqs
  refine lasalle (line_lip h B W).continuous hy
    (Z := Metric.closedBall 0 (tankR κ qs α β μ W (y 0)) ∩ {u | tankM μ W u = tankM μ W (y 0)})
    ((isCompact_closedBall _ _).inter_right ?_) (fun t ht => ⟨?_, (hb t ht).1⟩)
    (D := tankDiss κ qs α β f jac W) ?_ (fun u _ => line_diss_nonneg g h hα hβ hf u) (fun u hu hu0 => ?_)
    (V := fun t => tankV κ qs α β μ W (y t)) (fun t ht => lineV_deriv g h hμ.ne' (hy t ht)) (b := 0) (fun t ht => ?_)
  · refine isClosed_eq ?_ continuous_const
    unfold tankM
    fun_prop
  · rw [mem_closedBall_zero_iff]
    exact (hb t ht).2.2
  · refine Continuous.continuousOn ?_
    unfold tankDiss Spec.roughness Spec.grad tankPsi
    fun_prop
  · obtain ⟨h1, h2⟩ := line_diss_zero g h hα hβ hf hu0
    have hM : tankM μ W u = tankM μ W (y 0) := hu.2
    have hs : 0 < ∑ k, W k := Finset.sum_pos (fun k _ => g.wpos k) Finset.univ_nonempty
    have e : (∑ k, W k) * u.1 (Fin.last r) + 1 / μ * κ (u.1 (Fin.last r)) = tankM μ W (y 0) := by
      rw [← hM, ← h2]
      unfold tankM
      rw [Finset.sum_mul]
      congr 1
      exact Finset.sum_congr rfl fun k _ => by rw [h1 k]
    have := line_equilibrium h hμ hs (e.trans hq.symm)
    refine Prod.ext (funext fun k => ?_) ?_
    · rw [h1 k, this]
    · rw [h2, this]
  · refine le_trans (Finset.sum_nonneg fun k _ => ?_) (lineV_ge h hα hβ hμ g.wpos (y t))
    have := g.wpos k
    positivity

end
end WTM
