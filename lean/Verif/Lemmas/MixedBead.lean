import Verif.Lemmas.MultiBead

/-! One axial point of a column whose compounds are tied to one another in the water too: the energy of water and beads is a quadratic form that
need not be diagonal. -/
set_option autoImplicit false
namespace WTM
open BigOperators Set Topology Filter

section
variable {n N r : ℕ}

/-- A bilinear form. -/
noncomputable def hform (H : Fin n → Fin n → ℝ) (x y : Fin n → ℝ) : ℝ := ∑ i, ∑ j, H i j * (x i * y j)

variable {H : Fin n → Fin n → ℝ}

theorem hform_add_left (x x' y : Fin n → ℝ) : hform H (x + x') y = hform H x y + hform H x' y := by
  simp only [hform, Pi.add_apply, add_mul, mul_add, Finset.sum_add_distrib]

theorem hform_add_right (x y y' : Fin n → ℝ) : hform H x (y + y') = hform H x y + hform H x y' := by
  simp only [hform, Pi.add_apply, mul_add, Finset.sum_add_distrib]

theorem hform_smul_left (c : ℝ) (x y : Fin n → ℝ) : hform H (c • x) y = c * hform H x y := by
  simp only [hform, Finset.mul_sum, Pi.smul_apply, smul_eq_mul]
  exact Finset.sum_congr rfl fun i _ => Finset.sum_congr rfl fun j _ => by ring

theorem hform_smul_right (c : ℝ) (x y : Fin n → ℝ) : hform H x (c • y) = c * hform H x y := by
  simp only [hform, Finset.mul_sum, Pi.smul_apply, smul_eq_mul]
  exact Finset.sum_congr rfl fun i _ => Finset.sum_congr rfl fun j _ => by ring

theorem hform_zero_left (y : Fin n → ℝ) : hform H 0 y = 0 := by simp [hform]

theorem hform_zero_right (x : Fin n → ℝ) : hform H x 0 = 0 := by simp [hform]

/-- What is used of the isotherm's slope `J`, the diffusivities and the film coefficients: a form in which the slope is symmetric and positive,
in which the two kinds of diffusion together level out every gradient and the films every difference. -/
structure FormSlope (H : Fin n → Fin n → ℝ) (ℓ : (Fin n → ℝ) →L[ℝ] (Fin N → ℝ)) (m : Fin N → ℝ) (J : (Fin n → ℝ) →L[ℝ] (Fin n → ℝ))
    (α b f : Fin n → ℝ) : Prop where
  factor : ∀ x y, hform H x y = ∑ a, m a * (ℓ x a * ℓ y a)
  m_nonneg : ∀ a, 0 ≤ m a
  definite : ∀ x, hform H x x = 0 → x = 0
  symm : ∀ x y, hform H (J x) y = hform H (J y) x
  pos : ∀ x, x ≠ 0 → 0 < hform H (J x) x
  loses : ∀ x, x ≠ 0 → 0 < hform H (J x) (fun i => α i * J x i + b i * x i)
  film : ∀ x, x ≠ 0 → 0 < hform H x (fun i => f i * x i)

variable {ℓ : (Fin n → ℝ) →L[ℝ] (Fin N → ℝ)} {m : Fin N → ℝ} {J : (Fin n → ℝ) →L[ℝ] (Fin n → ℝ)} {α b f : Fin n → ℝ} {μ : ℝ}
  {jac : Fin r → ℝ} {B : Fin (r + 1) → Fin (r + 1) → ℝ} {W : Fin (r + 1) → ℝ}

/-- The energy of an axial point. -/
noncomputable def mxE (H : Fin n → Fin n → ℝ) (J : (Fin n → ℝ) →L[ℝ] (Fin n → ℝ)) (μ : ℝ) (W : Fin (r + 1) → ℝ) (p q : MPt (MBead n r) n) : ℝ :=
  (∑ k, W k * hform H (J (fun j => p.1 j k)) (fun j => q.1 j k)) + 1 / μ * hform H p.2 q.2

noncomputable def mxEL (H : Fin n → Fin n → ℝ) (J : (Fin n → ℝ) →L[ℝ] (Fin n → ℝ)) (μ : ℝ) (W : Fin (r + 1) → ℝ) :
    MPt (MBead n r) n →L[ℝ] MPt (MBead n r) n →L[ℝ] ℝ :=
  LinearMap.toContinuousBilinearMap (LinearMap.mk₂ ℝ (mxE H J μ W)
    (fun p p' q => by
      have e : ∀ k, J (fun j => (p + p').1 j k) = J (fun j => p.1 j k) + J (fun j => p'.1 j k) := fun k => by rw [← map_add]; rfl
      unfold mxE
      simp only [e, Prod.snd_add, hform_add_left, mul_add, Finset.sum_add_distrib]
      ring)
    (fun c p q => by
      have e : ∀ k, J (fun j => (c • p).1 j k) = c • J (fun j => p.1 j k) := fun k => by rw [← map_smul]; rfl
      unfold mxE
      simp only [e, Prod.smul_snd, hform_smul_left, smul_eq_mul, mul_add, Finset.mul_sum]
      congr 1
      · exact Finset.sum_congr rfl fun k _ => by ring
      · ring)
    (fun p q q' => by
      have e : ∀ k, (fun j => (q + q').1 j k) = (fun j => q.1 j k) + fun j => q'.1 j k := fun k => rfl
      unfold mxE
      simp only [e, Prod.snd_add, hform_add_right, mul_add, Finset.sum_add_distrib]
      ring)
    (fun c p q => by
      have e : ∀ k, (fun j => (c • q).1 j k) = c • fun j => q.1 j k := fun k => rfl
      unfold mxE
      simp only [e, Prod.smul_snd, hform_smul_right, smul_eq_mul, mul_add, Finset.mul_sum]
      congr 1
      · exact Finset.sum_congr rfl fun k _ => by ring
      · ring))

theorem mxEL_apply (p q : MPt (MBead n r) n) : mxEL H J μ W p q = mxE H J μ W p q := rfl

/-- Rate of the energy. -/
theorem mxE_rate (g : Spec.BeadGrid jac B W) (hμ : 0 < μ) (p : MPt (MBead n r) n) : mxE H J μ W p (ptRhs J α b f (fun _ => μ) B W p) =
    -(∑ k, W k * hform H (J (fun j => Spec.grad jac (p.1 j) k)) (fun i => α i * J (fun j => Spec.grad jac (p.1 j) k) i + b i * Spec.grad jac (p.1 i) k)) -
      hform H (p.2 - J (fun j => p.1 j (Fin.last r))) (fun i => f i * (p.2 - J (fun j => p.1 j (Fin.last r))) i) := by
  have hW := (g.wpos (Fin.last r)).ne'
  set R := ptRhs J α b f (fun _ => μ) B W p with hR
  have e1 : ∀ i j, wdot W (mpore J p.1 i) (R.1 j) =
      -wdot W (Spec.grad jac (mpore J p.1 i)) (Spec.grad jac fun k => α j * mpore J p.1 j k + b j * p.1 j k) +
        f j * (p.2 j - J (fun l => p.1 l (Fin.last r)) j) * J (fun l => p.1 l (Fin.last r)) i := by
    intro i j
    have h1 : R.1 j = beadL 1 B W (fun k => α j * mpore J p.1 j k + b j * p.1 j k) + (f j * (p.2 j - mpore J p.1 j (Fin.last r))) • surf W := rfl
    have h2 : wdot W (mpore J p.1 i) (R.1 j) = wdot W (mpore J p.1 i) (beadL 1 B W (fun k => α j * mpore J p.1 j k + b j * p.1 j k)) +
        (f j * (p.2 j - mpore J p.1 j (Fin.last r))) * wdot W (surf W) (mpore J p.1 i) := by
      rw [h1, wdot_comm (surf W)]
      unfold wdot
      rw [Finset.mul_sum, ← Finset.sum_add_distrib]
      exact Finset.sum_congr rfl fun k _ => by simp only [Pi.add_apply, Pi.smul_apply, smul_eq_mul]; ring
    rw [h2, wdot_beadL g, wdot_surf hW, one_mul]
    rfl
  have swap : ∀ (P Q : Fin n → Fin (r + 1) → ℝ), ∑ k, W k * hform H (fun i => P i k) (fun j => Q j k) = ∑ i, ∑ j, H i j * wdot W (P i) (Q j) := by
    intro P Q
    unfold hform wdot
    simp only [Finset.mul_sum]
    rw [Finset.sum_comm]
    refine Finset.sum_congr rfl fun i _ => ?_
    rw [Finset.sum_comm]
    exact Finset.sum_congr rfl fun j _ => Finset.sum_congr rfl fun k _ => by ring
  have e2 : ∑ k, W k * hform H (J (fun j => p.1 j k)) (fun j => R.1 j k) = ∑ i, ∑ j, H i j * wdot W (mpore J p.1 i) (R.1 j) :=
    swap (mpore J p.1) R.1
  have e3 : ∑ k, W k * hform H (J (fun j => Spec.grad jac (p.1 j) k)) (fun i => α i * J (fun j => Spec.grad jac (p.1 j) k) i + b i * Spec.grad jac (p.1 i) k) =
      ∑ i, ∑ j, H i j * wdot W (Spec.grad jac (mpore J p.1 i)) (Spec.grad jac fun k => α j * mpore J p.1 j k + b j * p.1 j k) := by
    rw [← swap]
    refine Finset.sum_congr rfl fun k _ => ?_
    simp only [grad_lin, grad_J]
  have e4 : R.2 = (-μ) • fun i => f i * (p.2 i - J (fun j => p.1 j (Fin.last r)) i) := by
    funext i
    show -(μ * (f i * (p.2 i - J (fun j => p.1 j (Fin.last r)) i))) = _
    simp only [Pi.smul_apply, smul_eq_mul]
    ring
  unfold mxE
  rw [e2, e3, e4, hform_smul_right, ← mul_assoc, show 1 / μ * -μ = -1 by field_simp]
  unfold hform
  simp only [e1, Finset.mul_sum, ← Finset.sum_neg_distrib, ← Finset.sum_add_distrib, ← Finset.sum_sub_distrib, Pi.sub_apply]
  exact Finset.sum_congr rfl fun i _ => Finset.sum_congr rfl fun j _ => by ring

theorem FormSlope.nonneg (hJ : FormSlope H ℓ m J α b f) (x : Fin n → ℝ) : 0 ≤ hform H (J x) x ∧ (hform H (J x) x = 0 → x = 0) := by
  by_cases h : x = 0
  · exact ⟨by rw [h, hform_zero_right], fun _ => h⟩
  · exact ⟨(hJ.pos x h).le, fun h0 => absurd h0 (hJ.pos x h).ne'⟩

theorem FormSlope.loss (hJ : FormSlope H ℓ m J α b f) (x : Fin n → ℝ) : 0 ≤ hform H (J x) (fun i => α i * J x i + b i * x i) ∧
    (hform H (J x) (fun i => α i * J x i + b i * x i) = 0 → x = 0) := by
  by_cases h : x = 0
  · exact ⟨by rw [h, map_zero, hform_zero_left], fun _ => h⟩
  · exact ⟨(hJ.loses x h).le, fun h0 => absurd h0 (hJ.loses x h).ne'⟩

theorem FormSlope.films (hJ : FormSlope H ℓ m J α b f) (x : Fin n → ℝ) : 0 ≤ hform H x (fun i => f i * x i) ∧
    (hform H x (fun i => f i * x i) = 0 → x = 0) := by
  by_cases h : x = 0
  · exact ⟨by rw [h, hform_zero_left], fun _ => h⟩
  · exact ⟨(hJ.film x h).le, fun h0 => absurd h0 (hJ.film x h).ne'⟩

theorem FormSlope.water_symm (hJ : FormSlope H ℓ m J α b f) (x y : Fin n → ℝ) : hform H x y = hform H y x := by
  rw [hJ.factor, hJ.factor]
  exact Finset.sum_congr rfl fun a _ => by ring

theorem FormSlope.water_nonneg (hJ : FormSlope H ℓ m J α b f) (x : Fin n → ℝ) : 0 ≤ hform H x x := by
  rw [hJ.factor]
  exact Finset.sum_nonneg fun a _ => mul_nonneg (hJ.m_nonneg a) (mul_self_nonneg _)

/-- Beads with such an isotherm have such an energy. -/
theorem mx_energy (g : Spec.BeadGrid jac B W) (hJ : FormSlope H ℓ m J α b f) (hμ : 0 < μ) :
    PtEnergy (ptCL J α b f (fun _ => μ) B W) (mxEL H J μ W) (J.comp (nodeCL (Fin.last r))) ℓ (fun a => m a / μ) := by
  have key : ∀ p : MPt (MBead n r) n, mxE H J μ W p (ptRhs J α b f (fun _ => μ) B W p) = 0 →
      (∀ i k l, p.1 i k = p.1 i l) ∧ ∀ i, p.2 i = J (fun j => p.1 j (Fin.last r)) i := by
    intro p hp
    rw [mxE_rate g hμ] at hp
    have n1 : ∀ k ∈ Finset.univ, 0 ≤ W k * hform H (J (fun j => Spec.grad jac (p.1 j) k))
        (fun i => α i * J (fun j => Spec.grad jac (p.1 j) k) i + b i * Spec.grad jac (p.1 i) k) :=
      fun k _ => mul_nonneg (g.wpos k).le (hJ.loss _).1
    have s1 := Finset.sum_nonneg n1
    have s2 := (hJ.films (p.2 - J (fun j => p.1 j (Fin.last r)))).1
    have z1 := (Finset.sum_eq_zero_iff_of_nonneg n1).1 (by linarith)
    have z2 := (hJ.films (p.2 - J (fun j => p.1 j (Fin.last r)))).2 (by linarith)
    refine ⟨fun i => (c205_rough g (p.1 i)).2.1 (Finset.sum_eq_zero fun k _ => ?_), fun i => ?_⟩
    · have := (hJ.loss _).2 ((mul_eq_zero.1 (z1 k (Finset.mem_univ k))).resolve_left (g.wpos k).ne')
      have h1 : Spec.grad jac (p.1 i) k = 0 := congrFun this i
      rw [h1]; ring
    · exact sub_eq_zero.1 (congrFun z2 i)
  have hμ' : 0 < 1 / μ := one_div_pos.2 hμ
  constructor
  · intro p q
    simp only [mxEL_apply, mxE]
    rw [hJ.water_symm p.2]
    congr 1
    refine Finset.sum_congr rfl fun k _ => ?_
    rw [hJ.symm (fun j => p.1 j k) (fun j => q.1 j k)]
  · intro p
    rw [mxEL_apply]
    exact add_nonneg (Finset.sum_nonneg fun k _ => mul_nonneg (g.wpos k).le (hJ.nonneg _).1) (mul_nonneg hμ'.le (hJ.water_nonneg _))
  · intro p hp
    rw [mxEL_apply] at hp
    have n1 : ∀ k ∈ Finset.univ, 0 ≤ W k * hform H (J (fun j => p.1 j k)) (fun j => p.1 j k) :=
      fun k _ => mul_nonneg (g.wpos k).le (hJ.nonneg (fun j => p.1 j k)).1
    have s1 := Finset.sum_nonneg n1
    have s2 := mul_nonneg hμ'.le (hJ.water_nonneg p.2)
    unfold mxE at hp
    have z1 := (Finset.sum_eq_zero_iff_of_nonneg n1).1 (by linarith)
    have z2 : 1 / μ * hform H p.2 p.2 = 0 := by linarith
    refine Prod.ext (funext fun i => funext fun k => ?_) (hJ.definite _ ((mul_eq_zero.1 z2).resolve_left hμ'.ne'))
    exact congrFun ((hJ.nonneg (fun j => p.1 j k)).2 ((mul_eq_zero.1 (z1 k (Finset.mem_univ k))).resolve_left (g.wpos k).ne')) i
  · intro p c
    rw [mxEL_apply]
    have e : ∀ k, (fun j => ((0 : MBead n r), c).1 j k) = (0 : Fin n → ℝ) := fun k => rfl
    unfold mxE
    simp only [e, hform_zero_right, mul_zero, Finset.sum_const_zero, zero_add]
    rw [hJ.factor, Finset.mul_sum]
    exact Finset.sum_congr rfl fun a _ => by ring
  · exact fun a => div_nonneg (hJ.m_nonneg a) hμ.le
  · intro p
    rw [mxEL_apply, ptCL_apply, mxE_rate g hμ]
    have s1 := Finset.sum_nonneg fun k (_ : k ∈ Finset.univ) => mul_nonneg (g.wpos k).le (hJ.loss fun j => Spec.grad jac (p.1 j) k).1
    have s2 := (hJ.films (p.2 - J (fun j => p.1 j (Fin.last r)))).1
    linarith
  · intro p hp
    obtain ⟨h1, h2⟩ := key p hp
    have hnode : ∀ k, (fun j => p.1 j k) = fun j => p.1 j (Fin.last r) := fun k => funext fun j => h1 j k _
    refine ⟨?_, funext h2⟩
    rw [ptCL_apply]
    refine Prod.ext (funext fun i => ?_) (funext fun i => ?_)
    · show beadL 1 B W (fun k => α i * J (fun j => p.1 j k) i + b i * p.1 i k) +
        (f i * (p.2 i - J (fun j => p.1 j (Fin.last r)) i)) • surf W = 0
      rw [bead_const g (fun k l => by rw [hnode k, hnode l, h1 i k l]), h2 i, sub_self, mul_zero, zero_smul, add_zero]
    · show -(μ * (f i * (p.2 i - J (fun j => p.1 j (Fin.last r)) i))) = 0
      rw [h2 i, sub_self]; ring
  · intro p hp h0
    obtain ⟨h1, h2⟩ := key p hp
    have h3 : (fun j => p.1 j (Fin.last r)) = 0 := by
      refine (hJ.nonneg _).2 ?_
      have : J (fun j => p.1 j (Fin.last r)) = 0 := by rw [← h0]; exact (funext h2).symm
      rw [this, hform_zero_left]
    refine Prod.ext (funext fun i => funext fun k => ?_) h0
    rw [h1 i k (Fin.last r)]
    exact congrFun h3 i

end
end WTM
