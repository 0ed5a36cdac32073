import Mathlib.Analysis.SpecialFunctions.Exponential
import Verif.Lemmas.Tank

/-! A closed tank of beads in which only the surface meets the isotherm: the water always stays above the equilibrium of the
surface. -/
set_option autoImplicit false
namespace WTM
open BigOperators Set Topology Filter

variable {r : ℕ}

/-- Quadrature of a product over the bead. -/
def wdot (W p q : Fin (r + 1) → ℝ) : ℝ := ∑ k, W k * (p k * q k)

/-- Rates of the loadings in a bead without exchange. -/
noncomputable def beadL (β : ℝ) (B : Fin (r + 1) → Fin (r + 1) → ℝ) (W q : Fin (r + 1) → ℝ) : Fin (r + 1) → ℝ :=
  fun k => if k = Fin.last r then -(∑ j : Fin r, W j.castSucc * ∑ l, B j.castSucc l * (β * q l)) / W (Fin.last r)
    else ∑ l, B k l * (β * q l)

section
variable {β f μ : ℝ} {jac : Fin r → ℝ} {B : Fin (r + 1) → Fin (r + 1) → ℝ} {W : Fin (r + 1) → ℝ}

theorem wdot_comm (p q : Fin (r + 1) → ℝ) : wdot W p q = wdot W q p :=
  Finset.sum_congr rfl fun k _ => by rw [mul_comm (p k)]

theorem grad_one (g : Spec.BeadGrid jac B W) (k : Fin (r + 1)) : Spec.grad jac (fun _ => 1) k = 0 := by
  have h := (c205_rough g (fun _ => (1 : ℝ))).2.2 fun _ _ => rfl
  have hn : ∀ k ∈ Finset.univ, 0 ≤ W k * Spec.grad jac (fun _ => 1) k ^ 2 :=
    fun k _ => mul_nonneg (g.wpos k).le (sq_nonneg _)
  have := (Finset.sum_eq_zero_iff_of_nonneg hn).1 h k (Finset.mem_univ k)
  rcases mul_eq_zero.1 this with h' | h'
  · exact absurd h' (g.wpos k).ne'
  · exact pow_eq_zero_iff (two_ne_zero) |>.1 h'

/-- The bead without exchange as a form in the gradients. -/
theorem wdot_beadL (g : Spec.BeadGrid jac B W) (p q : Fin (r + 1) → ℝ) :
    wdot W p (beadL β B W q) = -(β * wdot W (Spec.grad jac p) (Spec.grad jac q)) := by
  have h1 := c205_parts g p q
  have h2 := c205_parts g (fun _ => 1) q
  simp only [grad_one g, one_mul, zero_mul, mul_zero, Finset.sum_const_zero, sub_zero] at h2
  have e : ∀ k, ∑ l, B k l * (β * q l) = β * ∑ l, B k l * q l := by
    intro k
    rw [Finset.mul_sum]
    exact Finset.sum_congr rfl fun l _ => by ring
  have hW := (g.wpos (Fin.last r)).ne'
  have hne : ∀ k : Fin r, k.castSucc ≠ Fin.last r := fun k => (Fin.castSucc_lt_last k).ne
  unfold wdot beadL
  simp only [e]
  rw [Fin.sum_univ_castSucc] at h1 h2 ⊢
  rw [if_pos rfl]
  simp only [if_neg (hne _)]
  have e1 : ∑ j : Fin r, W j.castSucc * (β * ∑ l, B j.castSucc l * q l) = β * ∑ j : Fin r, W j.castSucc * ∑ l, B j.castSucc l * q l := by
    rw [Finset.mul_sum]
    exact Finset.sum_congr rfl fun l _ => by ring
  have e2 : ∑ j : Fin r, W j.castSucc * (p j.castSucc * (β * ∑ l, B j.castSucc l * q l)) =
      β * ∑ j : Fin r, W j.castSucc * (p j.castSucc * ∑ l, B j.castSucc l * q l) := by
    rw [Finset.mul_sum]
    exact Finset.sum_congr rfl fun l _ => by ring
  rw [e1, e2]
  have e3 : W (Fin.last r) * (p (Fin.last r) * (-(β * ∑ j : Fin r, W j.castSucc * ∑ l, B j.castSucc l * q l) / W (Fin.last r))) =
      -(β * p (Fin.last r) * ∑ j : Fin r, W j.castSucc * ∑ l, B j.castSucc l * q l) := by
    field_simp
  rw [e3]
  linear_combination β * h1 - β * p (Fin.last r) * h2

theorem wdot_sym (g : Spec.BeadGrid jac B W) (p q : Fin (r + 1) → ℝ) :
    wdot W (beadL β B W p) q = wdot W p (beadL β B W q) := by
  rw [wdot_comm, wdot_beadL g, wdot_beadL g, wdot_comm]

/-- As a linear map. -/
noncomputable def beadCL (β : ℝ) (B : Fin (r + 1) → Fin (r + 1) → ℝ) (W : Fin (r + 1) → ℝ) :
    (Fin (r + 1) → ℝ) →L[ℝ] (Fin (r + 1) → ℝ) :=
  LinearMap.toContinuousLinearMap
    { toFun := beadL β B W
      map_add' := by
        intro p q
        funext k
        simp only [beadL, Pi.add_apply, mul_add, Finset.sum_add_distrib]
        split
        · ring
        · rfl
      map_smul' := by
        intro c p
        funext k
        have e : ∀ k, ∑ l, B k l * (β * (c * p l)) = c * ∑ l, B k l * (β * p l) := by
          intro k
          rw [Finset.mul_sum]
          exact Finset.sum_congr rfl fun l _ => by ring
        simp only [beadL, Pi.smul_apply, smul_eq_mul, RingHom.id_apply, e]
        split
        · have e1 : ∑ j : Fin r, W j.castSucc * (c * ∑ l, B j.castSucc l * (β * p l)) =
              c * ∑ j : Fin r, W j.castSucc * ∑ l, B j.castSucc l * (β * p l) := by
            rw [Finset.mul_sum]
            exact Finset.sum_congr rfl fun l _ => by ring
          rw [e1]
          ring
        · rfl }

theorem beadCL_apply (q : Fin (r + 1) → ℝ) : beadCL β B W q = beadL β B W q := rfl

/-- Motion of a bead without exchange, forwards and backwards. -/
noncomputable def beadFlow (β : ℝ) (B : Fin (r + 1) → Fin (r + 1) → ℝ) (W v : Fin (r + 1) → ℝ) (t : ℝ) : Fin (r + 1) → ℝ :=
  NormedSpace.exp (t • beadCL β B W) v

theorem beadFlow_zero (v : Fin (r + 1) → ℝ) : beadFlow β B W v 0 = v := by
  unfold beadFlow
  rw [zero_smul, NormedSpace.exp_zero]
  rfl

theorem beadFlow_deriv (v : Fin (r + 1) → ℝ) (t : ℝ) :
    HasDerivAt (beadFlow β B W v) (beadL β B W (beadFlow β B W v t)) t := by
  have h := (hasDerivAt_exp_smul_const' (𝕂 := ℝ) (beadCL β B W) t).clm_apply (hasDerivAt_const t v)
  simp only [map_zero, add_zero] at h
  exact h

theorem beadFlow_deriv' (v : Fin (r + 1) → ℝ) (t : ℝ) :
    HasDerivAt (fun t => beadL β B W (beadFlow β B W v t)) (beadL β B W (beadL β B W (beadFlow β B W v t))) t :=
  (beadCL β B W).hasFDerivAt.comp_hasDerivAt t (beadFlow_deriv v t)

theorem wdot_deriv {x y : ℝ → Fin (r + 1) → ℝ} {x' y' : Fin (r + 1) → ℝ} {S : Set ℝ} {t : ℝ} (hx : HasDerivWithinAt x x' S t)
    (hy : HasDerivWithinAt y y' S t) :
    HasDerivWithinAt (fun t => wdot W (x t) (y t)) (wdot W x' (y t) + wdot W (x t) y') S t := by
  unfold wdot
  rw [← Finset.sum_add_distrib]
  refine HasDerivWithinAt.fun_sum fun k _ => ?_
  have := ((hasDerivWithinAt_pi.1 hx k).mul (hasDerivWithinAt_pi.1 hy k)).const_mul (W k)
  rw [mul_add] at this
  exact this

theorem rev_deriv {E : Type} [NormedAddCommGroup E] [NormedSpace ℝ E] {x : ℝ → E} {x' : E} {t s : ℝ} (h : HasDerivAt x x' (t - s)) :
    HasDerivAt (fun s => x (t - s)) (-x') s := by
  have h2 : HasDerivAt (fun s : ℝ => t - s) (-1) s := (hasDerivAt_id s).const_sub t
  have := HasDerivAt.scomp s h h2
  rw [neg_one_smul] at this
  exact this

theorem wdot_neg (p q : Fin (r + 1) → ℝ) : wdot W (-p) q = -wdot W p q := by
  unfold wdot
  rw [← Finset.sum_neg_distrib]
  exact Finset.sum_congr rfl fun k _ => by rw [Pi.neg_apply]; ring

theorem wdot_neg' (p q : Fin (r + 1) → ℝ) : wdot W p (-q) = -wdot W p q := by
  rw [wdot_comm, wdot_neg, wdot_comm]

/-- The product of one motion and another one run backwards stays the same. -/
theorem wdot_const (g : Spec.BeadGrid jac B W) {x y : ℝ → Fin (r + 1) → ℝ} (hx : ∀ t, HasDerivAt x (beadL β B W (x t)) t)
    (hy : ∀ t, HasDerivAt y (beadL β B W (y t)) t) (t s : ℝ) : wdot W (x s) (y (t - s)) = wdot W (x 0) (y t) := by
  have hd : ∀ s, HasDerivAt (fun s => wdot W (x s) (y (t - s))) 0 s := by
    intro s
    have := wdot_deriv (W := W) (hx s).hasDerivWithinAt (rev_deriv (hy (t - s))).hasDerivWithinAt (S := univ)
    rw [wdot_neg', wdot_sym g, add_neg_cancel, hasDerivWithinAt_univ] at this
    exact this
  have := is_const_of_deriv_eq_zero (fun s => (hd s).differentiableAt) (fun s => (hd s).deriv) s 0
  rw [this, sub_zero]

/-- A unit of mass at the surface. -/
noncomputable def surf (W : Fin (r + 1) → ℝ) : Fin (r + 1) → ℝ := fun k => if k = Fin.last r then 1 / W (Fin.last r) else 0

theorem wdot_surf (hW : W (Fin.last r) ≠ 0) (q : Fin (r + 1) → ℝ) : wdot W (surf W) q = q (Fin.last r) := by
  unfold wdot surf
  rw [Finset.sum_eq_single (Fin.last r)]
  · rw [if_pos rfl]; field_simp
  · intro k _ hk
    rw [if_neg hk]; ring
  · intro h; exact absurd (Finset.mem_univ _) h

theorem wdot_self (g : Spec.BeadGrid jac B W) (q : Fin (r + 1) → ℝ) : 0 ≤ wdot W q q ∧ (wdot W q q = 0 → ∀ k, q k = 0) := by
  have hn : ∀ k ∈ Finset.univ, 0 ≤ W k * (q k * q k) := fun k _ => mul_nonneg (g.wpos k).le (mul_self_nonneg _)
  refine ⟨Finset.sum_nonneg hn, fun h k => ?_⟩
  have := (Finset.sum_eq_zero_iff_of_nonneg hn).1 h k (Finset.mem_univ k)
  rcases mul_eq_zero.1 this with h' | h'
  · exact absurd h' (g.wpos k).ne'
  · exact mul_self_eq_zero.1 h'

theorem wdot_grad (q : Fin (r + 1) → ℝ) : wdot W (Spec.grad jac q) (Spec.grad jac q) = Spec.roughness jac W q :=
  Finset.sum_congr rfl fun k _ => by rw [sq]

/-- With points below the surface, mass put on the surface never becomes uniform. -/
theorem flow_rough (g : Spec.BeadGrid jac B W) (hβ : 0 < β) (hr : 0 < r) (t : ℝ) :
    0 < Spec.roughness jac W (beadFlow β B W (surf W) t) := by
  have h := c205_rough g (beadFlow β B W (surf W) t)
  refine lt_of_le_of_ne h.1 fun h0 => ?_
  have hW := g.wpos (Fin.last r)
  -- at rest at time t
  have hsl : ∀ q : Fin (r + 1) → ℝ, Spec.roughness jac W q = 0 → beadL β B W q = 0 := by
    intro q hq
    have hz : ∀ k, Spec.grad jac q k = 0 := by
      intro k
      have hn : ∀ k ∈ Finset.univ, 0 ≤ W k * Spec.grad jac q k ^ 2 := fun k _ => mul_nonneg (g.wpos k).le (sq_nonneg _)
      have := (Finset.sum_eq_zero_iff_of_nonneg hn).1 hq k (Finset.mem_univ k)
      rcases mul_eq_zero.1 this with h' | h'
      · exact absurd h' (g.wpos k).ne'
      · exact pow_eq_zero_iff (two_ne_zero) |>.1 h'
    have h1 : wdot W (beadL β B W q) (beadL β B W q) = 0 := by
      rw [wdot_beadL g]
      have : wdot W (Spec.grad jac (beadL β B W q)) (Spec.grad jac q) = 0 :=
        Finset.sum_eq_zero fun k _ => by rw [hz]; ring
      rw [this]; ring
    funext k
    exact (wdot_self g _).2 h1 k
  have h1 := hsl _ h0.symm
  -- so at rest at the start
  have h2 := wdot_const g (beadFlow_deriv' (β := β) (B := B) (W := W) (surf W)) (beadFlow_deriv' (surf W)) 0 t
  rw [h1, beadFlow_zero] at h2
  have h3 : wdot W (beadL β B W (surf W)) (beadL β B W (surf W)) = 0 := by
    rw [← h2]
    exact Finset.sum_eq_zero fun k _ => by simp
  have h4 : beadL β B W (surf W) = 0 := funext fun k => (wdot_self g _).2 h3 k
  have h5 := wdot_beadL (β := β) g (surf W) (surf W)
  rw [h4, wdot_grad] at h5
  have h6 : Spec.roughness jac W (surf W) = 0 := by
    have e : wdot W (surf W) 0 = 0 := Finset.sum_eq_zero fun k _ => by simp
    rw [e] at h5
    have : β * Spec.roughness jac W (surf W) = 0 := by linarith
    rcases mul_eq_zero.1 this with h' | h'
    · exact absurd h' hβ.ne'
    · exact h'
  have h7 := (c205_rough g (surf W)).2.1 h6 (Fin.last r) ⟨0, by omega⟩
  unfold surf at h7
  rw [if_pos rfl, if_neg] at h7
  · exact (one_div_pos.2 hW).ne' h7
  · intro h8
    have := congrArg Fin.val h8
    simp at this
    omega

/-- The loading of the surface after mass was put there is positive. -/
theorem flow_pos (g : Spec.BeadGrid jac B W) (t : ℝ) : 0 < beadFlow β B W (surf W) t (Fin.last r) := by
  have hW := g.wpos (Fin.last r)
  have e : t - t / 2 = t / 2 := by ring
  have h1 := wdot_const g (beadFlow_deriv (β := β) (B := B) (W := W) (surf W)) (beadFlow_deriv (surf W)) t (t / 2)
  rw [e, beadFlow_zero, wdot_surf hW.ne'] at h1
  rw [← h1]
  have h2 := wdot_self g (beadFlow β B W (surf W) (t / 2))
  refine lt_of_le_of_ne h2.1 fun h3 => ?_
  have h4 := h2.2 h3.symm
  have h5 := wdot_const g (beadFlow_deriv (β := β) (B := B) (W := W) (surf W)) (beadFlow_deriv (surf W)) 0 (t / 2)
  have h6 : wdot W (beadFlow β B W (surf W) (t / 2)) (beadFlow β B W (surf W) (0 - t / 2)) = 0 :=
    Finset.sum_eq_zero fun k _ => by rw [h4]; ring
  rw [h6, beadFlow_zero, wdot_surf hW.ne'] at h5
  unfold surf at h5
  rw [if_pos rfl] at h5
  exact (one_div_pos.2 hW).ne h5

/-- With points below the surface it falls. -/
theorem flow_falls (g : Spec.BeadGrid jac B W) (hβ : 0 < β) (hr : 0 < r) (t : ℝ) :
    beadL β B W (beadFlow β B W (surf W) t) (Fin.last r) < 0 := by
  have hW := (g.wpos (Fin.last r)).ne'
  have h0 := flow_rough (jac := jac) g hβ hr (t / 2)
  have e : t - t / 2 = t / 2 := by ring
  have h1 := wdot_const g (beadFlow_deriv (β := β) (B := B) (W := W) (surf W)) (beadFlow_deriv' (surf W)) t (t / 2)
  rw [e, beadFlow_zero, wdot_surf hW] at h1
  rw [← h1, wdot_beadL g, wdot_grad]
  exact neg_lt_zero.2 (mul_pos hβ h0)

end

/-! ### The tank -/

section
variable {κ : ℝ → ℝ} {β f μ : ℝ} {jac : Fin r → ℝ} {B : Fin (r + 1) → Fin (r + 1) → ℝ} {W : Fin (r + 1) → ℝ}
variable {y : ℝ → (Fin (r + 1) → ℝ) × ℝ} {T : ℝ}

theorem tankRhs_bead (u : (Fin (r + 1) → ℝ) × ℝ) : (tankRhs κ 0 β f μ B W u).1 =
    beadL β B W u.1 + (f * (u.2 - κ (u.1 (Fin.last r)))) • surf W := by
  funext k
  simp only [tankRhs, beadL, tankPsi, zero_mul, zero_add, Pi.add_apply, Pi.smul_apply, surf, smul_eq_mul]
  split <;> ring

/-- What a motion run backwards from `t` sees of the bead. -/
theorem dual_deriv (g : Spec.BeadGrid jac B W) {x : ℝ → Fin (r + 1) → ℝ} (hx : ∀ t, HasDerivAt x (beadL β B W (x t)) t)
    (hy : ∀ t ∈ Icc 0 T, HasDerivWithinAt y (tankRhs κ 0 β f μ B W (y t)) (Icc 0 T) t) (t : ℝ) {s : ℝ} (hs : s ∈ Icc 0 T) :
    HasDerivWithinAt (fun s => wdot W (x (t - s)) (y s).1)
      (x (t - s) (Fin.last r) * (f * ((y s).2 - κ ((y s).1 (Fin.last r))))) (Icc 0 T) s := by
  have h1 : HasDerivWithinAt (fun t => (y t).1) (tankRhs κ 0 β f μ B W (y s)).1 (Icc 0 T) s :=
    hasDerivWithinAt_pi.2 (tank_parts (hy s hs)).1
  rw [tankRhs_bead] at h1
  have := wdot_deriv (W := W) (rev_deriv (hx (t - s))).hasDerivWithinAt (S := Icc 0 T) h1
  convert this using 1
  rw [wdot_neg, wdot_sym g]
  have hW := (g.wpos (Fin.last r)).ne'
  have e : ∀ p q : Fin (r + 1) → ℝ, ∀ c : ℝ, wdot W p (q + c • surf W) = wdot W p q + c * p (Fin.last r) := by
    intro p q c
    rw [← wdot_surf hW p, wdot_comm (surf W)]
    unfold wdot
    rw [Finset.mul_sum, ← Finset.sum_add_distrib]
    exact Finset.sum_congr rfl fun k _ => by simp only [Pi.add_apply, Pi.smul_apply, smul_eq_mul]; ring
  rw [e]
  ring

theorem tank_cont (hy : ∀ t ∈ Icc 0 T, HasDerivWithinAt y (tankRhs κ 0 β f μ B W (y t)) (Icc 0 T) t) : ContinuousOn y (Icc 0 T) :=
  fun t ht => (hy t ht).continuousWithinAt

/-- As long as the water was above the equilibrium of the surface, the surface is loaded. -/
theorem tank_loaded (g : Spec.BeadGrid jac B W) (hf : 0 < f)
    (hy : ∀ t ∈ Icc 0 T, HasDerivWithinAt y (tankRhs κ 0 β f μ B W (y t)) (Icc 0 T) t) (h0 : ∀ k, (y 0).1 k = 0) {t : ℝ}
    (ht : t ∈ Ioc 0 T) (hJ : ∀ s ∈ Ico 0 t, κ ((y s).1 (Fin.last r)) < (y s).2) : 0 < (y t).1 (Fin.last r) := by
  have hW := (g.wpos (Fin.last r)).ne'
  have hsub : Icc 0 t ⊆ Icc 0 T := Icc_subset_Icc_right ht.2
  have hz : ∀ x : Fin (r + 1) → ℝ, wdot W x (y 0).1 = 0 := fun x => Finset.sum_eq_zero fun k _ => by rw [h0]; ring
  have hd := fun s (hs : s ∈ Icc 0 T) => dual_deriv g (beadFlow_deriv (β := β) (B := B) (W := W) (surf W)) hy t hs
  have hm : StrictMonoOn (fun s => wdot W (beadFlow β B W (surf W) (t - s)) (y s).1) (Icc 0 t) := by
    refine strictMonoOn_of_deriv_pos (convex_Icc 0 t) (fun s hs => (hd s (hsub hs)).continuousWithinAt.mono hsub) fun s hs => ?_
    rw [interior_Icc] at hs
    have hs' : s ∈ Icc 0 T := hsub ⟨hs.1.le, hs.2.le⟩
    have h1 := (hd s hs').hasDerivAt (Icc_mem_nhds hs.1 (hs.2.trans_le ht.2))
    rw [h1.deriv]
    exact mul_pos (flow_pos g _) (mul_pos hf (sub_pos.2 (hJ s ⟨hs.1.le, hs.2⟩)))
  have := hm (left_mem_Icc.2 ht.1.le) (right_mem_Icc.2 ht.1.le) ht.1
  simp only [sub_zero, sub_self, hz, beadFlow_zero, wdot_surf hW] at this
  exact this

/-- At that time the bead behind the surface takes away from it. -/
theorem tank_drawn (g : Spec.BeadGrid jac B W) (hβ : 0 < β) (hf : 0 < f) (hr : 0 < r)
    (hy : ∀ t ∈ Icc 0 T, HasDerivWithinAt y (tankRhs κ 0 β f μ B W (y t)) (Icc 0 T) t) (h0 : ∀ k, (y 0).1 k = 0) {t : ℝ}
    (ht : t ∈ Ioc 0 T) (hJ : ∀ s ∈ Ico 0 t, κ ((y s).1 (Fin.last r)) < (y s).2) : beadL β B W (y t).1 (Fin.last r) < 0 := by
  have hW := (g.wpos (Fin.last r)).ne'
  have hsub : Icc 0 t ⊆ Icc 0 T := Icc_subset_Icc_right ht.2
  have hz : ∀ x : Fin (r + 1) → ℝ, wdot W x (y 0).1 = 0 := fun x => Finset.sum_eq_zero fun k _ => by rw [h0]; ring
  have hd := fun s (hs : s ∈ Icc 0 T) => dual_deriv g (beadFlow_deriv' (β := β) (B := B) (W := W) (surf W)) hy t hs
  have hm : StrictAntiOn (fun s => wdot W (beadL β B W (beadFlow β B W (surf W) (t - s))) (y s).1) (Icc 0 t) := by
    refine strictAntiOn_of_deriv_neg (convex_Icc 0 t) (fun s hs => (hd s (hsub hs)).continuousWithinAt.mono hsub) fun s hs => ?_
    rw [interior_Icc] at hs
    have hs' : s ∈ Icc 0 T := hsub ⟨hs.1.le, hs.2.le⟩
    have h1 := (hd s hs').hasDerivAt (Icc_mem_nhds hs.1 (hs.2.trans_le ht.2))
    rw [h1.deriv]
    exact mul_neg_of_neg_of_pos (flow_falls g hβ hr _) (mul_pos hf (sub_pos.2 (hJ s ⟨hs.1.le, hs.2⟩)))
  have := hm (left_mem_Icc.2 ht.1.le) (right_mem_Icc.2 ht.1.le) ht.1
  simp only [sub_zero, sub_self, hz, beadFlow_zero] at this
  rwa [wdot_sym g, wdot_surf hW] at this

/-- The water sinks as long as it is above the equilibrium of the surface. -/
theorem tank_sinks (hf : 0 < f) (hμ : 0 < μ)
    (hy : ∀ t ∈ Icc 0 T, HasDerivWithinAt y (tankRhs κ 0 β f μ B W (y t)) (Icc 0 T) t) {t : ℝ} (ht : t ≤ T)
    (hJ : ∀ s ∈ Ico 0 t, κ ((y s).1 (Fin.last r)) < (y s).2) : StrictAntiOn (fun t => (y t).2) (Icc 0 t) := by
  have hsub : Icc 0 t ⊆ Icc 0 T := Icc_subset_Icc_right ht
  have hd := fun t (ht : t ∈ Icc 0 T) => (tank_parts (hy t ht)).2
  refine strictAntiOn_of_deriv_neg (convex_Icc 0 t) (fun s hs => (hd s (hsub hs)).continuousWithinAt.mono hsub) fun s hs => ?_
  rw [interior_Icc] at hs
  rw [((hd s (hsub ⟨hs.1.le, hs.2.le⟩)).hasDerivAt (Icc_mem_nhds hs.1 (hs.2.trans_le ht))).deriv]
  simp only [tankRhs]
  exact neg_lt_zero.2 (mul_pos hμ (mul_pos hf (sub_pos.2 (hJ s ⟨hs.1.le, hs.2⟩))))

/-- The water stays above the equilibrium of the surface. -/
theorem tank_above (g : Spec.BeadGrid jac B W) (hlip : LocallyLipschitz κ) (hz : κ 0 = 0) (hκ : ∀ x, 0 < x → κ x < (y 0).2 → ∃ d, 0 < d ∧ HasDerivAt κ d x)
    (hβ : 0 < β) (hf : 0 < f) (hμ : 0 < μ) (hy : ∀ t ∈ Icc 0 T, HasDerivWithinAt y (tankRhs κ 0 β f μ B W (y t)) (Icc 0 T) t) (h0 : ∀ k, (y 0).1 k = 0)
    (hc : 0 < (y 0).2) : ∀ t ∈ Icc 0 T, κ ((y t).1 (Fin.last r)) < (y t).2 := by
  by_contra hcon
  push Not at hcon
  obtain ⟨t1, ht1, hle⟩ := hcon
  have hcont : ContinuousOn (fun t => (y t).2 - κ ((y t).1 (Fin.last r))) (Icc 0 T) := by
    have h2 := hlip.continuous
    have h3 : Continuous fun u : (Fin (r + 1) → ℝ) × ℝ => u.2 - κ (u.1 (Fin.last r)) := by fun_prop
    exact h3.comp_continuousOn (tank_cont hy)
  have hJ0 : 0 < (y 0).2 - κ ((y 0).1 (Fin.last r)) := by rw [h0, hz, sub_zero]; exact hc
  -- first moment of equilibrium
  let S := {t | t ∈ Icc 0 T ∧ (y t).2 - κ ((y t).1 (Fin.last r)) ≤ 0}
  have hS : IsCompact S := by
    have : IsClosed S := hcont.preimage_isClosed_of_isClosed isClosed_Icc isClosed_Iic
    exact isCompact_Icc.of_isClosed_subset this fun t ht => ht.1
  obtain ⟨t0, ⟨ht0, hJt0⟩, hleast⟩ := hS.exists_isLeast ⟨t1, ht1, by linarith⟩
  have hbef : ∀ s ∈ Ico 0 t0, κ ((y s).1 (Fin.last r)) < (y s).2 := by
    intro s hs
    by_contra hn
    push Not at hn
    have := hleast ⟨⟨hs.1, hs.2.le.trans ht0.2⟩, by linarith⟩
    exact absurd this (not_le.2 hs.2)
  have hpos : 0 < t0 := by
    rcases ht0.1.lt_or_eq with h | h
    · exact h
    · rw [← h] at hJt0; linarith
  have hsub : Icc 0 t0 ⊆ Icc 0 T := Icc_subset_Icc_right ht0.2
  have hJ : (y t0).2 - κ ((y t0).1 (Fin.last r)) = 0 := by
    refine le_antisymm hJt0 ?_
    have hlim : Tendsto (fun t => (y t).2 - κ ((y t).1 (Fin.last r))) (𝓝[Ico 0 t0] t0) (𝓝 ((y t0).2 - κ ((y t0).1 (Fin.last r)))) :=
      (hcont t0 ht0).mono_left (nhdsWithin_mono _ fun s hs => hsub ⟨hs.1, hs.2.le⟩)
    have : (𝓝[Ico 0 t0] t0).NeBot := right_nhdsWithin_Ico_neBot hpos
    refine ge_of_tendsto hlim ?_
    filter_upwards [self_mem_nhdsWithin] with s hs
    linarith [hbef s hs]
  rcases Nat.eq_zero_or_pos r with hr | hr
  · -- one point: at rest
    subst hr
    have hrest : tankRhs κ 0 β f μ B W (y t0) = 0 := by
      refine Prod.ext (funext fun k => ?_) ?_
      · have : k = Fin.last 0 := Subsingleton.elim (α := Fin 1) _ _
        subst this
        simp only [tankRhs, if_true]
        rw [hJ]
        simp
      · simp only [tankRhs]
        rw [hJ]
        simp
    have hu := unique_auto (F := fun u => -tankRhs κ 0 β f μ B W u) (a := 0) (b := t0) (y1 := fun s => y (t0 - s)) (y2 := fun _ => y t0)
      (rhs_lip hlip B W).neg (fun s hs => ?_) (fun s hs => ?_) (by simp) t0 ⟨hpos.le, le_rfl⟩
    · simp only [sub_self] at hu
      rw [hu] at hJ0
      linarith
    · have hm : t0 - s ∈ Icc 0 T := hsub ⟨by linarith [hs.2], by linarith [hs.1]⟩
      have h1 := hy _ hm
      have h2 : HasDerivWithinAt (fun s : ℝ => t0 - s) (-1) (Icc 0 t0) s := ((hasDerivAt_id s).const_sub t0).hasDerivWithinAt
      have := HasDerivWithinAt.scomp s h1 h2 (fun x hx => hsub ⟨by linarith [hx.2], by linarith [hx.1]⟩)
      simpa [Function.comp_def] using this
    · rw [hrest, neg_zero]
      exact hasDerivWithinAt_const _ _ _
  · have hq := tank_loaded g hf hy h0 ⟨hpos, ht0.2⟩ hbef
    have hb := tank_drawn g hβ hf hr hy h0 ⟨hpos, ht0.2⟩ hbef
    have hlt := tank_sinks hf hμ hy ht0.2 hbef (left_mem_Icc.2 hpos.le) (right_mem_Icc.2 hpos.le) hpos
    obtain ⟨d, hd, hκd⟩ := hκ _ hq (by have : (y t0).2 < (y 0).2 := hlt; linarith)
    obtain ⟨p1, p2⟩ := tank_parts (hy t0 ht0)
    have p1' := p1 (Fin.last r)
    rw [tankRhs_bead] at p1'
    simp only [hJ, mul_zero, zero_smul, add_zero] at p1'
    have e2 : (tankRhs κ 0 β f μ B W (y t0)).2 = 0 := by
      simp only [tankRhs]; rw [hJ]; simp
    rw [e2] at p2
    have hJd := (p2.sub (hκd.comp_hasDerivWithinAt t0 p1')).mono hsub
    rw [hasDerivWithinAt_iff_tendsto_slope] at hJd
    have e3 : Icc 0 t0 \ {t0} = Ico 0 t0 := Icc_sdiff_right
    rw [e3] at hJd
    have : (𝓝[Ico 0 t0] t0).NeBot := right_nhdsWithin_Ico_neBot hpos
    have hle0 : 0 - d * beadL β B W (y t0).1 (Fin.last r) ≤ 0 := by
      refine le_of_tendsto hJd ?_
      filter_upwards [self_mem_nhdsWithin] with s hs
      rw [slope_def_field]
      have h1 := hbef s hs
      have h2 := hs.2
      refine div_nonpos_of_nonneg_of_nonpos ?_ (by linarith)
      simp only [Pi.sub_apply, Function.comp_apply]
      linarith
    have := mul_neg_of_pos_of_neg hd hb
    linarith

/-- Hence the water falls all the time, and the surface is loaded from the start. -/
theorem tank_falls (g : Spec.BeadGrid jac B W) (hlip : LocallyLipschitz κ) (hz : κ 0 = 0)
    (hκ : ∀ x, 0 < x → κ x < (y 0).2 → ∃ d, 0 < d ∧ HasDerivAt κ d x) (hβ : 0 < β) (hf : 0 < f) (hμ : 0 < μ)
    (hy : ∀ t ∈ Icc 0 T, HasDerivWithinAt y (tankRhs κ 0 β f μ B W (y t)) (Icc 0 T) t) (h0 : ∀ k, (y 0).1 k = 0)
    (hc : 0 < (y 0).2) : StrictAntiOn (fun t => (y t).2) (Icc 0 T) ∧ (∀ t ∈ Icc 0 T, κ ((y t).1 (Fin.last r)) < (y t).2) ∧
      ∀ t ∈ Ioc 0 T, 0 < (y t).1 (Fin.last r) := by
  have ha := tank_above g hlip hz hκ hβ hf hμ hy h0 hc
  refine ⟨tank_sinks hf hμ hy le_rfl fun s hs => ha s ⟨hs.1, hs.2.le⟩, ha, fun t ht => tank_loaded g hf hy h0 ht fun s hs => ha s ⟨hs.1, hs.2.le.trans ht.2⟩⟩

end
end WTM
