import Verif.Lemmas.AxialForm
import Verif.Lemmas.Settle
import Verif.Lemmas.Decay

/-! A column of beads with a linear isotherm, fed with a constant water: the excess over the influent dies out exponentially. -/
set_option autoImplicit false
namespace WTM
open BigOperators Set Topology Filter

variable {r z : ℕ} {a β f μ κ : ℝ} {jac : Fin r → ℝ} {B : Fin (r + 1) → Fin (r + 1) → ℝ} {W : Fin (r + 1) → ℝ}
  {A : Fin (z + 1) → Fin (z + 1) → ℝ} {G : Fin z → Fin z → ℝ}

/-- Excesses below the inlet: the beads and the water at each axial point. -/
abbrev ColExc (r z : ℕ) := Fin z → (Fin (r + 1) → ℝ) × ℝ

/-- Rates of the excesses. -/
noncomputable def colCL (a β f μ κ : ℝ) (A : Fin (z + 1) → Fin (z + 1) → ℝ) (B : Fin (r + 1) → Fin (r + 1) → ℝ) (W : Fin (r + 1) → ℝ) :
    ColExc r z →L[ℝ] ColExc r z :=
  ContinuousLinearMap.pi fun w => (tankCL a β f μ B W).comp (ContinuousLinearMap.proj w) -
    (ContinuousLinearMap.inr ℝ (Fin (r + 1) → ℝ) ℝ).comp (κ • ∑ w' : Fin z, A w.succ w'.succ •
      (ContinuousLinearMap.snd ℝ (Fin (r + 1) → ℝ) ℝ).comp (ContinuousLinearMap.proj w'))

theorem colCL_apply (u : ColExc r z) (w : Fin z) : colCL a β f μ κ A B W u w =
    tankCL a β f μ B W (u w) - ((0 : Fin (r + 1) → ℝ), κ * ∑ w' : Fin z, A w.succ w'.succ * (u w').2) := by
  simp [colCL]
  refine Prod.ext ?_ ?_
  · simp [Prod.fst_sum]
  · simp [Prod.snd_sum]

/-- The energy of the excesses. -/
def cdot (a μ : ℝ) (G : Fin z → Fin z → ℝ) (W : Fin (r + 1) → ℝ) (u v : ColExc r z) : ℝ :=
  ∑ i, ∑ j, G i j * tdot a μ W (u i) (v j)

theorem gdot_wdot (p q : Fin z → Fin (r + 1) → ℝ) :
    ∑ i, ∑ j, G i j * wdot W (p i) (q j) = ∑ k, W k * gdot G (fun i => p i k) (fun j => q j k) := by
  unfold wdot gdot
  simp only [Finset.mul_sum]
  rw [Finset.sum_comm' (t' := Finset.univ) (s' := fun _ => Finset.univ) (by simp)]
  have : ∀ j : Fin z, ∑ i, ∑ k, G i j * (W k * (p i k * q j k)) = ∑ k, ∑ i, G i j * (W k * (p i k * q j k)) :=
    fun j => Finset.sum_comm
  simp only [this]
  rw [Finset.sum_comm]
  refine Finset.sum_congr rfl fun k _ => ?_
  rw [Finset.sum_comm]
  refine Finset.sum_congr rfl fun i _ => Finset.sum_congr rfl fun j _ => ?_
  ring

theorem cdot_parts (u v : ColExc r z) : cdot a μ G W u v =
    μ * a * (∑ k, W k * gdot G (fun i => (u i).1 k) (fun j => (v j).1 k)) + gdot G (fun i => (u i).2) (fun j => (v j).2) := by
  rw [← gdot_wdot (G := G) (W := W) (fun i => (u i).1) (fun j => (v j).1)]
  unfold cdot tdot gdot
  rw [Finset.mul_sum, ← Finset.sum_add_distrib]
  refine Finset.sum_congr rfl fun i _ => ?_
  rw [Finset.mul_sum, ← Finset.sum_add_distrib]
  exact Finset.sum_congr rfl fun j _ => by ring

theorem cdot_comm (hG : AxialForm A G) (u v : ColExc r z) : cdot a μ G W u v = cdot a μ G W v u := by
  unfold cdot
  rw [Finset.sum_comm]
  refine Finset.sum_congr rfl fun i _ => Finset.sum_congr rfl fun j _ => ?_
  rw [hG.symm, tdot_comm]

theorem cdot_pos (g : Spec.BeadGrid jac B W) (hG : AxialForm A G) (ha : 0 < a) (hμ : 0 < μ) (u : ColExc r z) :
    0 ≤ cdot a μ G W u u ∧ (cdot a μ G W u u = 0 → u = 0) := by
  have hn : ∀ k ∈ Finset.univ, 0 ≤ W k * gdot G (fun i => (u i).1 k) (fun j => (u j).1 k) :=
    fun k _ => mul_nonneg (g.wpos k).le (hG.pos _)
  have h1 := mul_nonneg (mul_pos hμ ha).le (Finset.sum_nonneg hn)
  have h2 := hG.pos fun i => (u i).2
  rw [cdot_parts]
  refine ⟨add_nonneg h1 h2, fun h0 => ?_⟩
  have e1 : μ * a * ∑ k, W k * gdot G (fun i => (u i).1 k) (fun j => (u j).1 k) = 0 := by linarith
  have e2 : gdot G (fun i => (u i).2) (fun i => (u i).2) = 0 := by linarith
  have e3 := (Finset.sum_eq_zero_iff_of_nonneg hn).1 ((mul_eq_zero.1 e1).resolve_left (mul_pos hμ ha).ne')
  have z2 := hG.definite _ e2
  funext w
  refine Prod.ext (funext fun k => ?_) (congrFun z2 w)
  have z1 := hG.definite _ ((mul_eq_zero.1 (e3 k (Finset.mem_univ k))).resolve_left (g.wpos k).ne')
  exact congrFun z1 w

/-- The part of the loss inside the beads and their films. -/
noncomputable def colLoss (a β f μ : ℝ) (jac : Fin r → ℝ) (G : Fin z → Fin z → ℝ) (W : Fin (r + 1) → ℝ) (u : ColExc r z) : ℝ :=
  μ * a * β * (∑ k, W k * gdot G (fun i => Spec.grad jac (u i).1 k) (fun j => Spec.grad jac (u j).1 k)) +
    μ * f * gdot G (fun i => (u i).2 - a * (u i).1 (Fin.last r)) (fun i => (u i).2 - a * (u i).1 (Fin.last r))

theorem tdot_tank (g : Spec.BeadGrid jac B W) (u v : (Fin (r + 1) → ℝ) × ℝ) : tdot a μ W u (tankCL a β f μ B W v) =
    -(μ * a * β * wdot W (Spec.grad jac u.1) (Spec.grad jac v.1)) -
      μ * f * ((u.2 - a * u.1 (Fin.last r)) * (v.2 - a * v.1 (Fin.last r))) := by
  have hW := (g.wpos (Fin.last r)).ne'
  unfold tdot
  rw [tankCL_apply, tankRhs_bead]
  have := wdot_lin (W := W) 1 (f * (v.2 - a * v.1 (Fin.last r))) (beadL β B W v.1) (surf W) u.1
  rw [one_smul, one_mul, wdot_surf hW] at this
  rw [wdot_comm, this, wdot_comm, wdot_beadL g]
  simp only [tankRhs]
  ring

theorem cdot_rate (g : Spec.BeadGrid jac B W) (u : ColExc r z) : cdot a μ G W u (colCL a β f μ κ A B W u) =
    -colLoss a β f μ jac G W u - κ * gdot G (fun i => (u i).2) (fun w => ∑ w' : Fin z, A w.succ w'.succ * (u w').2) := by
  have e : ∀ i j, G i j * tdot a μ W (u i) (colCL a β f μ κ A B W u j) =
      -(μ * a * β) * (G i j * wdot W (Spec.grad jac (u i).1) (Spec.grad jac (u j).1)) -
      μ * f * (G i j * (((u i).2 - a * (u i).1 (Fin.last r)) * ((u j).2 - a * (u j).1 (Fin.last r)))) -
      κ * (G i j * ((u i).2 * ∑ w' : Fin z, A j.succ w'.succ * (u w').2)) := by
    intro i j
    have h1 : tdot a μ W (u i) (colCL a β f μ κ A B W u j) = tdot a μ W (u i) (tankCL a β f μ B W (u j)) -
        (u i).2 * (κ * ∑ w' : Fin z, A j.succ w'.succ * (u w').2) := by
      rw [colCL_apply]
      unfold tdot
      rw [Prod.fst_sub, Prod.snd_sub, sub_zero]
      ring
    rw [h1, tdot_tank g]
    ring
  unfold cdot
  simp only [e, Finset.sum_sub_distrib, ← Finset.mul_sum]
  rw [gdot_wdot (G := G) (W := W) (fun i => Spec.grad jac (u i).1) (fun j => Spec.grad jac (u j).1)]
  unfold colLoss gdot
  ring

theorem colLoss_nonneg (g : Spec.BeadGrid jac B W) (hG : AxialForm A G) (ha : 0 < a) (hβ : 0 < β) (hf : 0 < f) (hμ : 0 < μ)
    (u : ColExc r z) : 0 ≤ colLoss a β f μ jac G W u ∧ (colLoss a β f μ jac G W u = 0 →
      ∀ w, (∀ k l, (u w).1 k = (u w).1 l) ∧ (u w).2 = a * (u w).1 (Fin.last r)) := by
  have hn : ∀ k ∈ Finset.univ, 0 ≤ W k * gdot G (fun i => Spec.grad jac (u i).1 k) (fun j => Spec.grad jac (u j).1 k) :=
    fun k _ => mul_nonneg (g.wpos k).le (hG.pos _)
  have p1 : 0 < μ * a * β := mul_pos (mul_pos hμ ha) hβ
  have p2 : 0 < μ * f := mul_pos hμ hf
  have h1 := mul_nonneg p1.le (Finset.sum_nonneg hn)
  have h2 := mul_nonneg p2.le (hG.pos fun i => (u i).2 - a * (u i).1 (Fin.last r))
  unfold colLoss
  refine ⟨add_nonneg h1 h2, fun h0 w => ?_⟩
  have e1 : μ * a * β * ∑ k, W k * gdot G (fun i => Spec.grad jac (u i).1 k) (fun j => Spec.grad jac (u j).1 k) = 0 := by linarith
  have e2 : μ * f * gdot G (fun i => (u i).2 - a * (u i).1 (Fin.last r)) (fun i => (u i).2 - a * (u i).1 (Fin.last r)) = 0 := by linarith
  have e3 := (Finset.sum_eq_zero_iff_of_nonneg hn).1 ((mul_eq_zero.1 e1).resolve_left p1.ne')
  have z2 := congrFun (hG.definite _ ((mul_eq_zero.1 e2).resolve_left p2.ne')) w
  refine ⟨(c205_rough g (u w).1).2.1 ?_, by simpa [sub_eq_zero] using z2⟩
  refine Finset.sum_eq_zero fun k _ => ?_
  have z1 := congrFun (hG.definite _ ((mul_eq_zero.1 (e3 k (Finset.mem_univ k))).resolve_left (g.wpos k).ne')) w
  have : Spec.grad jac (u w).1 k = 0 := z1
  rw [this]; ring

theorem tank_rest (g : Spec.BeadGrid jac B W) {v : (Fin (r + 1) → ℝ) × ℝ} (hu : ∀ k l, v.1 k = v.1 l) (hs : v.2 = a * v.1 (Fin.last r)) :
    tankCL a β f μ B W v = 0 := by
  have hB : ∀ k, ∑ l, B k l * tankPsi (fun q => a * q) 0 β (v.1 l) = 0 := by
    intro k
    have : ∀ l, B k l * tankPsi (fun q => a * q) 0 β (v.1 l) = B k l * tankPsi (fun q => a * q) 0 β (v.1 k) := fun l => by rw [hu l k]
    simp only [this]
    rw [← Finset.sum_mul, g.rows, zero_mul]
  rw [tankCL_apply]
  unfold tankRhs
  simp only [hB, hs, sub_self, mul_zero, Finset.sum_const_zero, zero_div, ite_self, neg_zero]
  rfl

theorem column_settle (g : Spec.BeadGrid jac B W) (hA : Spec.MovesAll A) (hG : AxialForm A G) (ha : 0 < a) (hβ : 0 < β) (hf : 0 < f)
    (hμ : 0 < μ) (hκ : 0 < κ) :
    ∃ C ω : ℝ, 0 < C ∧ 0 < ω ∧ ∀ (x : ℝ → ColExc r z) (T : ℝ),
      (∀ t ∈ Icc 0 T, HasDerivWithinAt x (colCL a β f μ κ A B W (x t)) (Icc 0 T) t) →
      ∀ t ∈ Icc 0 T, ‖x t‖ ≤ C * Real.exp (-(ω * t)) * ‖x 0‖ := by
  refine settle_norm (colCL a β f μ κ A B W) (fun u => cdot a μ G W u u) (fun u => 2 * (colLoss a β f μ jac G W u +
    κ * gdot G (fun i => (u i).2) (fun w => ∑ w' : Fin z, A w.succ w'.succ * (u w').2))) ?_ (fun u => (cdot_pos g hG ha hμ u).1)
    (fun u => (cdot_pos g hG ha hμ u).2) ?_ ?_ ?_ ?_
  · unfold cdot tdot wdot
    fun_prop
  · intro c u
    unfold cdot
    rw [Finset.mul_sum]
    refine Finset.sum_congr rfl fun i _ => ?_
    rw [Finset.mul_sum]
    refine Finset.sum_congr rfl fun j _ => ?_
    have h1 := tdot_lin (a := a) (μ := μ) (W := W) c 0 (u i) 0 (c • u j)
    have h2 := tdot_lin (a := a) (μ := μ) (W := W) c 0 (u j) 0 (u i)
    rw [zero_smul, add_zero, zero_mul, add_zero] at h1 h2
    rw [Pi.smul_apply, Pi.smul_apply, h1, tdot_comm (u i), h2, tdot_comm (u j)]
    ring
  · intro x t hx
    have hd : HasDerivAt (fun t => cdot a μ G W (x t) (x t))
        (∑ i, ∑ j, G i j * (tdot a μ W (colCL a β f μ κ A B W (x t) i) (x t j) + tdot a μ W (x t i) (colCL a β f μ κ A B W (x t) j))) t := by
      unfold cdot
      refine HasDerivAt.fun_sum fun i _ => HasDerivAt.fun_sum fun j _ => ?_
      exact (tdot_deriv (hasDerivAt_pi.1 hx i) (hasDerivAt_pi.1 hx j)).const_mul _
    refine hd.congr_deriv ?_
    have e : ∑ i, ∑ j, G i j * (tdot a μ W (colCL a β f μ κ A B W (x t) i) (x t j) + tdot a μ W (x t i) (colCL a β f μ κ A B W (x t) j)) =
        cdot a μ G W (colCL a β f μ κ A B W (x t)) (x t) + cdot a μ G W (x t) (colCL a β f μ κ A B W (x t)) := by
      unfold cdot
      simp only [mul_add, Finset.sum_add_distrib]
    rw [e, cdot_comm hG, cdot_rate g]
    ring
  · intro u
    have := (colLoss_nonneg (β := β) (f := f) g hG ha hβ hf hμ u).1
    have := mul_nonneg hκ.le (hG.falls fun i => (u i).2)
    linarith
  · intro x hx h0
    have hL : ∀ t ∈ Ioo (0 : ℝ) 1, ∀ w, (∀ k l, (x t w).1 k = (x t w).1 l) ∧ (x t w).2 = a * (x t w).1 (Fin.last r) := by
      intro t ht
      have h1 := colLoss_nonneg (β := β) (f := f) g hG ha hβ hf hμ (x t)
      have h2 := mul_nonneg hκ.le (hG.falls fun i => (x t i).2)
      have h3 := h0 t ht.1
      exact h1.2 (by linarith [h1.1])
    refine ⟨1 / 2, by norm_num, ?_⟩
    have ht : (1 / 2 : ℝ) ∈ Ioo (0 : ℝ) 1 := by norm_num
    have hAc : ∀ w : Fin z, ∑ w' : Fin z, A w.succ w'.succ * (x (1 / 2) w').2 = 0 := by
      intro w
      have hd := hasDerivAt_pi.1 (hx (1 / 2)) w
      rw [colCL_apply, tank_rest g (hL _ ht w).1 (hL _ ht w).2, zero_sub] at hd
      obtain ⟨d1, d2⟩ := tank_parts hd.hasDerivWithinAt (S := univ)
      have d3 := d2.sub ((d1 (Fin.last r)).const_mul a)
      rw [hasDerivWithinAt_univ] at d3
      have d4 : HasDerivAt (fun t => (x t w).2 - a * (x t w).1 (Fin.last r)) 0 (1 / 2) := by
        refine (hasDerivAt_const (1 / 2 : ℝ) (0 : ℝ)).congr_of_eventuallyEq ?_
        filter_upwards [Ioo_mem_nhds ht.1 ht.2] with s hs
        rw [(hL s hs w).2, sub_self]
      have := d3.unique d4
      simp only [Prod.fst_neg, Prod.snd_neg, Pi.neg_apply, Pi.zero_apply, neg_zero, mul_zero, sub_zero, neg_eq_zero] at this
      exact (mul_eq_zero.1 this).resolve_left hκ.ne'
    have hc := (hA (Fin.cons 0 fun w => (x (1 / 2) w).2)).1 (fun w hw => by
      obtain ⟨w', rfl⟩ := Fin.exists_succ_eq.2 hw
      rw [Fin.sum_univ_succ]
      simp only [Fin.cons_zero, Fin.cons_succ, mul_zero, zero_add]
      exact hAc w')
    funext w
    have h2 : (x (1 / 2) w).2 = 0 := by simpa using hc w.succ
    have h3 := (hL _ ht w).2
    rw [h2] at h3
    have h4 : (x (1 / 2) w).1 (Fin.last r) = 0 := (mul_eq_zero.1 h3.symm).resolve_left ha.ne'
    refine Prod.ext (funext fun k => ?_) h2
    rw [(hL _ ht w).1 k (Fin.last r), h4]
    rfl

/-- Rates of the excesses of the beads at the inlet, whose water is the influent. -/
noncomputable def inletCL (a β f : ℝ) (B : Fin (r + 1) → Fin (r + 1) → ℝ) (W : Fin (r + 1) → ℝ) :
    (Fin (r + 1) → ℝ) →L[ℝ] (Fin (r + 1) → ℝ) :=
  (ContinuousLinearMap.fst ℝ (Fin (r + 1) → ℝ) ℝ).comp ((tankCL a β f 1 B W).comp (ContinuousLinearMap.inl ℝ (Fin (r + 1) → ℝ) ℝ))

theorem inletCL_apply (q : Fin (r + 1) → ℝ) : inletCL a β f B W q = (tankCL a β f 1 B W (q, 0)).1 := rfl

theorem inlet_settle (g : Spec.BeadGrid jac B W) (ha : 0 < a) (hβ : 0 < β) (hf : 0 < f) :
    ∃ C ω : ℝ, 0 < C ∧ 0 < ω ∧ ∀ (x : ℝ → Fin (r + 1) → ℝ) (T : ℝ),
      (∀ t ∈ Icc 0 T, HasDerivWithinAt x (inletCL a β f B W (x t)) (Icc 0 T) t) →
      ∀ t ∈ Icc 0 T, ‖x t‖ ≤ C * Real.exp (-(ω * t)) * ‖x 0‖ := by
  have hW := (g.wpos (Fin.last r)).ne'
  have key : ∀ q, wdot W q (inletCL a β f B W q) = -(β * wdot W (Spec.grad jac q) (Spec.grad jac q)) - f * a * q (Fin.last r) ^ 2 := by
    intro q
    rw [inletCL_apply, tankCL_apply, tankRhs_bead]
    have := wdot_lin (W := W) 1 (f * ((q, (0 : ℝ)).2 - a * (q, (0 : ℝ)).1 (Fin.last r))) (beadL β B W q) (surf W) q
    rw [one_smul, one_mul, wdot_surf hW] at this
    rw [wdot_comm, this, wdot_comm, wdot_beadL g]
    ring
  have hgr : ∀ q, 0 ≤ wdot W (Spec.grad jac q) (Spec.grad jac q) := fun q => (wdot_self g _).1
  refine settle_norm (inletCL a β f B W) (fun q => wdot W q q) (fun q => 2 * (β * wdot W (Spec.grad jac q) (Spec.grad jac q) +
    f * a * q (Fin.last r) ^ 2)) ?_ (fun q => (wdot_self g q).1) (fun q h => funext ((wdot_self g q).2 h)) ?_ ?_ ?_ ?_
  · unfold wdot
    fun_prop
  · intro c q
    unfold wdot
    rw [Finset.mul_sum]
    refine Finset.sum_congr rfl fun k _ => ?_
    simp only [Pi.smul_apply, smul_eq_mul]
    ring
  · intro x t hx
    have h := wdot_deriv (W := W) hx.hasDerivWithinAt hx.hasDerivWithinAt (S := univ)
    rw [hasDerivWithinAt_univ] at h
    refine h.congr_deriv ?_
    rw [wdot_comm, key]
    ring
  · intro q
    have := mul_nonneg hβ.le (hgr q)
    have : 0 ≤ f * a * q (Fin.last r) ^ 2 := by positivity
    linarith
  · intro x _ h0
    refine ⟨1 / 2, by norm_num, ?_⟩
    have h1 := h0 (1 / 2) (by norm_num)
    have h2 := mul_nonneg hβ.le (hgr (x (1 / 2)))
    have h3 : 0 ≤ f * a * x (1 / 2) (Fin.last r) ^ 2 := by positivity
    have e1 : β * wdot W (Spec.grad jac (x (1 / 2))) (Spec.grad jac (x (1 / 2))) = 0 := by linarith
    have e2 : f * a * x (1 / 2) (Fin.last r) ^ 2 = 0 := by linarith
    have z1 := (wdot_self g _).2 ((mul_eq_zero.1 e1).resolve_left hβ.ne')
    have z2 : x (1 / 2) (Fin.last r) = 0 :=
      pow_eq_zero_iff two_ne_zero |>.1 ((mul_eq_zero.1 e2).resolve_left (mul_pos hf ha).ne')
    have hu := (c205_rough g (x (1 / 2))).2.1 (Finset.sum_eq_zero fun k _ => by rw [z1 k]; ring)
    funext k
    rw [hu k (Fin.last r), z2]
    rfl

end WTM
