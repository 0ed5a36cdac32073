import Verif.Lemmas.Surface
import Verif.Lemmas.Global
import Mathlib.Analysis.Convex.Deriv
import Mathlib.Analysis.SpecialFunctions.Log.Deriv

/-! A tank with a linear isotherm: the approach to equilibrium is logarithmically convex. -/
set_option autoImplicit false
namespace WTM
open BigOperators Set Topology Filter

variable {r : ℕ} {a β f μ : ℝ} {jac : Fin r → ℝ} {B : Fin (r + 1) → Fin (r + 1) → ℝ} {W : Fin (r + 1) → ℝ}

/-- The product in which a tank with the isotherm `a * q` is symmetric. -/
def tdot (a μ : ℝ) (W : Fin (r + 1) → ℝ) (u v : (Fin (r + 1) → ℝ) × ℝ) : ℝ := μ * a * wdot W u.1 v.1 + u.2 * v.2

theorem wdot_lin (c d : ℝ) (p q s : Fin (r + 1) → ℝ) : wdot W (c • p + d • q) s = c * wdot W p s + d * wdot W q s := by
  unfold wdot
  rw [Finset.mul_sum, Finset.mul_sum, ← Finset.sum_add_distrib]
  exact Finset.sum_congr rfl fun k _ => by simp only [Pi.add_apply, Pi.smul_apply, smul_eq_mul]; ring

theorem tdot_comm (u v : (Fin (r + 1) → ℝ) × ℝ) : tdot a μ W u v = tdot a μ W v u := by
  unfold tdot
  rw [wdot_comm, mul_comm u.2]

theorem tdot_lin (c d : ℝ) (u v w : (Fin (r + 1) → ℝ) × ℝ) :
    tdot a μ W (c • u + d • v) w = c * tdot a μ W u w + d * tdot a μ W v w := by
  unfold tdot
  rw [Prod.fst_add, Prod.smul_fst, Prod.smul_fst, wdot_lin, Prod.snd_add, Prod.smul_snd, Prod.smul_snd, smul_eq_mul, smul_eq_mul]
  ring

theorem tdot_pos (g : Spec.BeadGrid jac B W) (ha : 0 < a) (hμ : 0 < μ) (u : (Fin (r + 1) → ℝ) × ℝ) :
    0 ≤ tdot a μ W u u ∧ (tdot a μ W u u = 0 → u = 0) := by
  have h := wdot_self g u.1
  have h1 : 0 ≤ μ * a * wdot W u.1 u.1 := mul_nonneg (mul_pos hμ ha).le h.1
  have h2 := mul_self_nonneg u.2
  refine ⟨add_nonneg h1 h2, fun h0 => ?_⟩
  unfold tdot at h0
  have e1 : μ * a * wdot W u.1 u.1 = 0 := by linarith
  have e2 : u.2 * u.2 = 0 := by linarith
  refine Prod.ext (funext fun k => h.2 ?_ k) (mul_self_eq_zero.1 e2)
  exact (mul_eq_zero.1 e1).resolve_left (mul_pos hμ ha).ne'

theorem tdot_schwarz (g : Spec.BeadGrid jac B W) (ha : 0 < a) (hμ : 0 < μ) (u v : (Fin (r + 1) → ℝ) × ℝ) :
    tdot a μ W u v ^ 2 ≤ tdot a μ W u u * tdot a μ W v v := by
  have hv := tdot_pos g ha hμ v
  have h := (tdot_pos g ha hμ (tdot a μ W v v • u + (-tdot a μ W u v) • v)).1
  rw [tdot_lin, tdot_comm u (_ + _), tdot_comm v (_ + _), tdot_lin, tdot_lin, tdot_comm v u] at h
  rcases hv.1.eq_or_lt with h0 | h0
  · have : v = 0 := hv.2 h0.symm
    subst this
    have e : tdot a μ W u 0 = 0 := by simp [tdot, wdot]
    rw [e, ← h0]; simp
  · have e : tdot a μ W v v * (tdot a μ W v v * tdot a μ W u u + -tdot a μ W u v * tdot a μ W u v) +
        -tdot a μ W u v * (tdot a μ W v v * tdot a μ W u v + -tdot a μ W u v * tdot a μ W v v) =
        tdot a μ W v v * (tdot a μ W u u * tdot a μ W v v - tdot a μ W u v ^ 2) := by ring
    rw [e] at h
    have := nonneg_of_mul_nonneg_right h h0
    linarith

/-- The rates of a tank with a linear isotherm as a linear map. -/
noncomputable def tankCL (a β f μ : ℝ) (B : Fin (r + 1) → Fin (r + 1) → ℝ) (W : Fin (r + 1) → ℝ) :
    ((Fin (r + 1) → ℝ) × ℝ) →L[ℝ] (Fin (r + 1) → ℝ) × ℝ :=
  LinearMap.toContinuousLinearMap
    { toFun := tankRhs (fun q => a * q) 0 β f μ B W
      map_add' := by
        intro u v
        refine Prod.ext ?_ ?_
        · rw [Prod.fst_add, tankRhs_bead, tankRhs_bead, tankRhs_bead]
          have : beadL β B W (u + v).1 = beadL β B W u.1 + beadL β B W v.1 := (beadCL β B W).map_add u.1 v.1
          rw [this]
          funext k
          simp only [Pi.add_apply, Pi.smul_apply, smul_eq_mul, Prod.snd_add, Prod.fst_add]
          ring
        · simp only [tankRhs, Prod.snd_add, Prod.fst_add, Pi.add_apply]
          ring
      map_smul' := by
        intro c u
        refine Prod.ext ?_ ?_
        · rw [RingHom.id_apply, Prod.smul_fst, tankRhs_bead, tankRhs_bead]
          have : beadL β B W (c • u).1 = c • beadL β B W u.1 := (beadCL β B W).map_smul c u.1
          rw [this]
          funext k
          simp only [Pi.add_apply, Pi.smul_apply, smul_eq_mul, Prod.smul_snd, Prod.smul_fst]
          ring
        · simp only [tankRhs, RingHom.id_apply, Prod.smul_snd, Prod.smul_fst, Pi.smul_apply, smul_eq_mul]
          ring }

theorem tankCL_apply (u : (Fin (r + 1) → ℝ) × ℝ) : tankCL a β f μ B W u = tankRhs (fun q => a * q) 0 β f μ B W u := rfl

theorem tdot_sym (g : Spec.BeadGrid jac B W) (u v : (Fin (r + 1) → ℝ) × ℝ) :
    tdot a μ W (tankCL a β f μ B W u) v = tdot a μ W u (tankCL a β f μ B W v) := by
  have hW := (g.wpos (Fin.last r)).ne'
  have key : ∀ u v : (Fin (r + 1) → ℝ) × ℝ, tdot a μ W (tankCL a β f μ B W u) v =
      μ * a * wdot W (beadL β B W u.1) v.1 - μ * f * (u.2 - a * u.1 (Fin.last r)) * (v.2 - a * v.1 (Fin.last r)) := by
    intro u v
    unfold tdot
    rw [tankCL_apply, tankRhs_bead]
    have := wdot_lin (W := W) 1 (f * (u.2 - a * u.1 (Fin.last r))) (beadL β B W u.1) (surf W) v.1
    rw [one_smul, one_mul, wdot_surf hW] at this
    rw [this]
    simp only [tankRhs]
    ring
  rw [key, tdot_comm, key, wdot_sym g, wdot_comm]
  ring

/-- Motion of the tank. -/
noncomputable def tankFlow (a β f μ : ℝ) (B : Fin (r + 1) → Fin (r + 1) → ℝ) (W : Fin (r + 1) → ℝ) (v : (Fin (r + 1) → ℝ) × ℝ)
    (t : ℝ) : (Fin (r + 1) → ℝ) × ℝ := NormedSpace.exp (t • tankCL a β f μ B W) v

theorem tankFlow_zero (v : (Fin (r + 1) → ℝ) × ℝ) : tankFlow a β f μ B W v 0 = v := by
  unfold tankFlow
  rw [zero_smul, NormedSpace.exp_zero]
  rfl

theorem tankFlow_deriv (v : (Fin (r + 1) → ℝ) × ℝ) (t : ℝ) :
    HasDerivAt (tankFlow a β f μ B W v) (tankCL a β f μ B W (tankFlow a β f μ B W v t)) t := by
  have h := (hasDerivAt_exp_smul_const' (𝕂 := ℝ) (tankCL a β f μ B W) t).clm_apply (hasDerivAt_const t v)
  simp only [map_zero, add_zero] at h
  exact h

theorem tankFlow_deriv' (v : (Fin (r + 1) → ℝ) × ℝ) (t : ℝ) :
    HasDerivAt (fun t => tankCL a β f μ B W (tankFlow a β f μ B W v t))
      (tankCL a β f μ B W (tankCL a β f μ B W (tankFlow a β f μ B W v t))) t :=
  (tankCL a β f μ B W).hasFDerivAt.comp_hasDerivAt t (tankFlow_deriv v t)

theorem tdot_deriv {x y : ℝ → (Fin (r + 1) → ℝ) × ℝ} {x' y' : (Fin (r + 1) → ℝ) × ℝ} {t : ℝ} (hx : HasDerivAt x x' t)
    (hy : HasDerivAt y y' t) : HasDerivAt (fun t => tdot a μ W (x t) (y t)) (tdot a μ W x' (y t) + tdot a μ W (x t) y') t := by
  obtain ⟨x1, x2⟩ := tank_parts hx.hasDerivWithinAt (S := univ)
  obtain ⟨y1, y2⟩ := tank_parts hy.hasDerivWithinAt (S := univ)
  have h1 := (wdot_deriv (W := W) (hasDerivWithinAt_pi.2 x1) (hasDerivWithinAt_pi.2 y1)).const_mul (μ * a)
  have h2 := h1.add (x2.mul y2)
  rw [hasDerivWithinAt_univ] at h2
  unfold tdot
  refine h2.congr_deriv ?_
  ring

/-- The product of one motion and another one run backwards stays the same. -/
theorem tdot_const (g : Spec.BeadGrid jac B W) {x y : ℝ → (Fin (r + 1) → ℝ) × ℝ}
    (hx : ∀ t, HasDerivAt x (tankCL a β f μ B W (x t)) t) (hy : ∀ t, HasDerivAt y (tankCL a β f μ B W (y t)) t) (s t : ℝ) :
    tdot a μ W (x s) (y t) = tdot a μ W (x 0) (y (s + t)) := by
  have hd : ∀ σ, HasDerivAt (fun σ => tdot a μ W (x σ) (y (s + t - σ))) 0 σ := by
    intro σ
    have := tdot_deriv (a := a) (μ := μ) (W := W) (hx σ) (rev_deriv (hy (s + t - σ)))
    refine this.congr_deriv ?_
    have e := tdot_lin (a := a) (μ := μ) (W := W) (-1) 0 (tankCL a β f μ B W (y (s + t - σ))) 0 (x σ)
    rw [zero_smul, add_zero, neg_one_smul, zero_mul, add_zero] at e
    rw [tdot_sym g, tdot_comm (x σ) (-_), e, tdot_comm (tankCL a β f μ B W (y _))]
    ring
  have := is_const_of_deriv_eq_zero (fun σ => (hd σ).differentiableAt) (fun σ => (hd σ).deriv) s 0
  simp only [sub_zero, add_sub_cancel_left] at this
  exact this

/-- How far a motion that starts at `v` is away from rest. -/
noncomputable def gram (a β f μ : ℝ) (B : Fin (r + 1) → Fin (r + 1) → ℝ) (W : Fin (r + 1) → ℝ) (v : (Fin (r + 1) → ℝ) × ℝ) (t : ℝ) : ℝ :=
  tdot a μ W v (tankFlow a β f μ B W v t)

theorem gram_add (g : Spec.BeadGrid jac B W) (v : (Fin (r + 1) → ℝ) × ℝ) (s t : ℝ) :
    gram a β f μ B W v (s + t) = tdot a μ W (tankFlow a β f μ B W v s) (tankFlow a β f μ B W v t) := by
  rw [tdot_const g (tankFlow_deriv v) (tankFlow_deriv v), tankFlow_zero]
  rfl

/-- Only the state at rest from the start gets to rest. -/
theorem tankFlow_ne (v : (Fin (r + 1) → ℝ) × ℝ) (hv : v ≠ 0) (t : ℝ) : tankFlow a β f μ B W v t ≠ 0 := by
  intro h
  have hlip : LocallyLipschitz (fun u => -tankCL a β f μ B W u) :=
    ((-tankCL a β f μ B W).lipschitz).locallyLipschitz
  rcases le_total 0 t with ht | ht
  · have h1 : ∀ s ∈ Icc 0 t, HasDerivWithinAt (fun s => tankFlow a β f μ B W v (t - s))
        (-tankCL a β f μ B W (tankFlow a β f μ B W v (t - s))) (Icc 0 t) s :=
      fun s _ => (rev_deriv (tankFlow_deriv v (t - s))).hasDerivWithinAt
    have h2 : ∀ s ∈ Icc 0 t, HasDerivWithinAt (fun _ : ℝ => (0 : (Fin (r + 1) → ℝ) × ℝ)) (-tankCL a β f μ B W 0) (Icc 0 t) s := by
      intro s _
      rw [map_zero, neg_zero]
      exact hasDerivWithinAt_const _ _ _
    have := unique_auto hlip h1 h2 (by rw [sub_zero]; exact h) t ⟨ht, le_rfl⟩
    rw [sub_self, tankFlow_zero] at this
    exact hv this
  · have hlip' : LocallyLipschitz (fun u => tankCL a β f μ B W u) := ((tankCL a β f μ B W).lipschitz).locallyLipschitz
    have h1 : ∀ s ∈ Icc t 0, HasDerivWithinAt (tankFlow a β f μ B W v) (tankCL a β f μ B W (tankFlow a β f μ B W v s)) (Icc t 0) s :=
      fun s _ => (tankFlow_deriv v s).hasDerivWithinAt
    have h2 : ∀ s ∈ Icc t 0, HasDerivWithinAt (fun _ : ℝ => (0 : (Fin (r + 1) → ℝ) × ℝ)) (tankCL a β f μ B W 0) (Icc t 0) s := by
      intro s _
      rw [map_zero]
      exact hasDerivWithinAt_const _ _ _
    have := unique_auto hlip' h1 h2 h 0 ⟨ht, le_rfl⟩
    rw [tankFlow_zero] at this
    exact hv this

theorem gram_pos (g : Spec.BeadGrid jac B W) (ha : 0 < a) (hμ : 0 < μ) {v : (Fin (r + 1) → ℝ) × ℝ} (hv : v ≠ 0) (t : ℝ) :
    0 < gram a β f μ B W v t := by
  have e : t = t / 2 + t / 2 := by ring
  rw [e, gram_add g]
  have h := tdot_pos g ha hμ (tankFlow a β f μ B W v (t / 2))
  exact lt_of_le_of_ne h.1 fun h0 => tankFlow_ne v hv _ (h.2 h0.symm)

theorem gram_convex (g : Spec.BeadGrid jac B W) (ha : 0 < a) (hμ : 0 < μ) {v : (Fin (r + 1) → ℝ) × ℝ} (hv : v ≠ 0) :
    ConvexOn ℝ univ fun t => Real.log (gram a β f μ B W v t) := by
  set L := tankCL a β f μ B W with hL
  set x := tankFlow a β f μ B W v with hx
  have d0 : ∀ t, HasDerivAt (fun _ : ℝ => v) 0 t := fun t => hasDerivAt_const t v
  have z : ∀ u, tdot a μ W 0 u = 0 := fun u => by simp [tdot, wdot]
  have d1 : ∀ t, HasDerivAt (gram a β f μ B W v) (tdot a μ W v (L (x t))) t := fun t => by
    have := tdot_deriv (a := a) (μ := μ) (W := W) (d0 t) (tankFlow_deriv (a := a) (β := β) (f := f) (μ := μ) (B := B) (W := W) v t)
    rw [z, zero_add] at this
    exact this
  have d2 : ∀ t, HasDerivAt (fun t => tdot a μ W v (L (x t))) (tdot a μ W v (L (L (x t)))) t := fun t => by
    have := tdot_deriv (a := a) (μ := μ) (W := W) (d0 t) (tankFlow_deriv' (a := a) (β := β) (f := f) (μ := μ) (B := B) (W := W) v t)
    rw [z, zero_add] at this
    exact this
  have hp := fun t => gram_pos (β := β) (f := f) (B := B) g ha hμ hv t
  have half : ∀ t : ℝ, t / 2 + t / 2 = t := fun t => by ring
  have e1 : ∀ t, tdot a μ W v (L (x t)) = tdot a μ W (x (t / 2)) (L (x (t / 2))) := fun t => by
    have := tdot_const g (tankFlow_deriv (a := a) (β := β) (f := f) (μ := μ) (B := B) (W := W) v)
      (tankFlow_deriv' (a := a) (β := β) (f := f) (μ := μ) (B := B) (W := W) v) (t / 2) (t / 2)
    rw [tankFlow_zero, half] at this
    exact this.symm
  have e2 : ∀ t, tdot a μ W v (L (L (x t))) = tdot a μ W (L (x (t / 2))) (L (x (t / 2))) := fun t => by
    have h3 : ∀ t, HasDerivAt (fun t => L (L (x t))) (L (L (L (x t)))) t := fun t =>
      L.hasFDerivAt.comp_hasDerivAt t (tankFlow_deriv' v t)
    have := tdot_const g (tankFlow_deriv (a := a) (β := β) (f := f) (μ := μ) (B := B) (W := W) v) h3 (t / 2) (t / 2)
    rw [tankFlow_zero, half] at this
    rw [← this, ← tdot_sym g]
  have d3 : ∀ t, HasDerivAt (fun t => Real.log (gram a β f μ B W v t)) (tdot a μ W v (L (x t)) / gram a β f μ B W v t) t :=
    fun t => (d1 t).log (hp t).ne'
  have hder : deriv (fun t => Real.log (gram a β f μ B W v t)) = fun t => tdot a μ W v (L (x t)) / gram a β f μ B W v t :=
    funext fun t => (d3 t).deriv
  have d4 := fun t => (d2 t).div (d1 t) (hp t).ne'
  refine MonotoneOn.convexOn_of_deriv convex_univ (fun t _ => (d3 t).continuousAt.continuousWithinAt)
    (fun t _ => (d3 t).differentiableAt.differentiableWithinAt) ?_
  rw [hder]
  refine (monotone_of_deriv_nonneg (fun t => (d4 t).differentiableAt) fun t => ?_).monotoneOn _
  rw [(d4 t).deriv]
  refine div_nonneg ?_ (sq_nonneg _)
  have hs := tdot_schwarz g ha hμ (x (t / 2)) (L (x (t / 2)))
  have hg := gram_add (a := a) (β := β) (f := f) (μ := μ) (B := B) g v (t / 2) (t / 2)
  rw [half] at hg
  rw [e1, e2, hg]
  nlinarith [hs]

/-- The excess of the water of a tank that starts with clean beads. -/
theorem tank_excess (g : Spec.BeadGrid jac B W) (ha : 0 < a) (hμ : 0 < μ) {y : ℝ → (Fin (r + 1) → ℝ) × ℝ} {c0 ce : ℝ}
    (hc0 : 0 < c0) (hce : ce * (1 + μ * (∑ k, W k) / a) = c0)
    (hy : ∀ T, ∀ t ∈ Icc 0 T, HasDerivWithinAt y (tankRhs (fun q => a * q) 0 β f μ B W (y t)) (Icc 0 T) t)
    (h0 : ∀ k, (y 0).1 k = 0) (hc : (y 0).2 = c0) :
    (∀ t ≥ 0, ce < (y t).2) ∧ ConvexOn ℝ (Ici 0) fun t => Real.log ((y t).2 - ce) := by
  set S := ∑ k, W k with hS
  have hSpos : 0 < S := Finset.sum_pos (fun k _ => g.wpos k) Finset.univ_nonempty
  have hden : 0 < 1 + μ * S / a := by positivity
  have hce0 : 0 < ce := by
    by_contra hle
    have := mul_nonpos_of_nonpos_of_nonneg (not_lt.1 hle) hden.le
    linarith
  let e : (Fin (r + 1) → ℝ) × ℝ := (fun _ => ce / a, ce)
  have hWl := (g.wpos (Fin.last r)).ne'
  -- at rest
  have hLe : tankCL a β f μ B W e = 0 := by
    rw [tankCL_apply]
    have hz : e.2 - a * e.1 (Fin.last r) = 0 := by
      show ce - a * (ce / a) = 0
      field_simp; ring
    have hbead : beadL β B W e.1 = 0 := by
      have hn : wdot W (beadL β B W e.1) (beadL β B W e.1) = 0 := by
        rw [wdot_beadL g]
        have : Spec.grad jac e.1 = 0 := by
          funext k
          have h1 := grad_one g k
          have h2 : Spec.grad jac e.1 k = (ce / a) * Spec.grad jac (fun _ => 1) k := by
            unfold Spec.grad
            rw [Finset.mul_sum]
            exact Finset.sum_congr rfl fun l _ => by ring
          rw [h2, h1, mul_zero]; rfl
        rw [this]
        simp [wdot]
      exact funext fun k => (wdot_self g _).2 hn k
    refine Prod.ext ?_ ?_
    · rw [tankRhs_bead, hbead, hz, mul_zero, zero_smul, add_zero]; rfl
    · show -(μ * (f * (e.2 - a * e.1 (Fin.last r)))) = 0
      rw [hz]; ring
  set v := y 0 - e with hv
  have hv0 : v ≠ 0 := by
    intro h
    have := congrFun (congrArg Prod.fst h) (Fin.last r)
    have h2 : (y 0).1 (Fin.last r) - ce / a = 0 := this
    rw [h0] at h2
    have := div_pos hce0 ha
    linarith
  -- the run is the flow
  have hlip : LocallyLipschitz (fun u => tankCL a β f μ B W u) := ((tankCL a β f μ B W).lipschitz).locallyLipschitz
  have hrun : ∀ t ≥ 0, y t = tankFlow a β f μ B W v t + e := by
    intro t ht
    refine unique_auto (y2 := fun t => tankFlow a β f μ B W v t + e) hlip (hy t) (fun s _ => ?_) ?_ t ⟨ht, le_rfl⟩
    · rw [map_add, hLe, add_zero]
      exact ((tankFlow_deriv v s).add_const e).hasDerivWithinAt
    · rw [tankFlow_zero, hv, sub_add_cancel]
  -- products with the state at rest
  have he : ∀ u : (Fin (r + 1) → ℝ) × ℝ, tdot a μ W e (tankCL a β f μ B W u) = 0 := by
    intro u
    rw [← tdot_sym g, hLe]
    simp [tdot, wdot]
  have hev : tdot a μ W e v = 0 := by
    have h1 : tdot a μ W e (y 0) = ce * c0 := by
      unfold tdot
      have : wdot W e.1 (y 0).1 = 0 := Finset.sum_eq_zero fun k _ => by rw [h0]; ring
      rw [this, hc]
      show _ + ce * c0 = _
      ring
    have h2 : tdot a μ W e e = ce * c0 := by
      unfold tdot
      have : wdot W e.1 e.1 = S * (ce / a * (ce / a)) := by rw [hS, Finset.sum_mul]; rfl
      rw [this, ← hce]
      show _ + ce * ce = _
      field_simp
      ring
    have h3 := tdot_lin (a := a) (μ := μ) (W := W) 1 (-1) (y 0) e e
    rw [one_smul, neg_one_smul, ← sub_eq_add_neg, tdot_comm (y 0) e, h1, h2] at h3
    rw [tdot_comm, hv, h3]
    ring
  have hgram : ∀ t ≥ 0, gram a β f μ B W v t = c0 * ((y t).2 - ce) := by
    intro t ht
    have hcons : tdot a μ W e (tankFlow a β f μ B W v t) = 0 := by
      have hd : ∀ s, HasDerivAt (fun s => tdot a μ W e (tankFlow a β f μ B W v s)) 0 s := fun s => by
        have := tdot_deriv (a := a) (μ := μ) (W := W) (hasDerivAt_const s e) (tankFlow_deriv (a := a) (β := β) (f := f) (μ := μ) (B := B) (W := W) v s)
        rw [he, add_zero] at this
        refine this.congr_deriv ?_
        simp [tdot, wdot]
      have := is_const_of_deriv_eq_zero (fun s => (hd s).differentiableAt) (fun s => (hd s).deriv) t 0
      rw [this, tankFlow_zero, hev]
    have h3 := tdot_lin (a := a) (μ := μ) (W := W) 1 (-1) (y 0) e (tankFlow a β f μ B W v t)
    rw [one_smul, neg_one_smul, ← sub_eq_add_neg, hcons] at h3
    unfold gram
    rw [hv] at *
    rw [h3]
    have h4 : (y t).2 - ce = (tankFlow a β f μ B W (y 0 - e) t).2 := by
      rw [hrun t ht]
      show _ + ce - ce = _
      ring
    rw [h4]
    unfold tdot
    have : wdot W (y 0).1 (tankFlow a β f μ B W (y 0 - e) t).1 = 0 := Finset.sum_eq_zero fun k _ => by rw [h0]; ring
    rw [this, hc]
    ring
  have hE : ∀ t ≥ 0, (y t).2 - ce = gram a β f μ B W v t / c0 := fun t ht => by
    rw [hgram t ht]; field_simp
  have hp := fun t => gram_pos (β := β) (f := f) (B := B) g ha hμ hv0 t
  refine ⟨fun t ht => ?_, ?_⟩
  · have := div_pos (hp t) hc0
    rw [← hE t ht] at this
    linarith
  · have hcv := (gram_convex (β := β) (f := f) (B := B) g ha hμ hv0).subset (subset_univ (Ici (0:ℝ))) (convex_Ici 0)
    have := hcv.add_const (-Real.log c0)
    refine this.congr fun t ht => ?_
    show _ + -Real.log c0 = Real.log _
    rw [hE t ht, Real.log_div (hp t).ne' hc0.ne']
    ring

end WTM
