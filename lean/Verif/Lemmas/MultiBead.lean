import Verif.Lemmas.MultiColumn
import Verif.Lemmas.Surface

/-! Beads with any number of compounds in competition: the energy of one axial point. -/
set_option autoImplicit false
namespace WTM
open BigOperators Set Topology Filter

section
variable {n r : ℕ}

/-- Loadings of all compounds over the bead. -/
abbrev MBead (n r : ℕ) := Fin n → Fin (r + 1) → ℝ

/-- The loadings at a node. -/
noncomputable def nodeCL (k : Fin (r + 1)) : MBead n r →L[ℝ] (Fin n → ℝ) :=
  ContinuousLinearMap.pi fun j => (ContinuousLinearMap.proj (R := ℝ) (φ := fun _ : Fin (r + 1) => ℝ) k).comp
    (ContinuousLinearMap.proj (R := ℝ) (φ := fun _ : Fin n => Fin (r + 1) → ℝ) j)

theorem nodeCL_apply (k : Fin (r + 1)) (y : MBead n r) : nodeCL k y = fun j => y j k := rfl

/-- Pore concentrations over the bead. -/
def mpore (φ : (Fin n → ℝ) → Fin n → ℝ) (y : MBead n r) : MBead n r := fun i k => φ (fun j => y j k) i

noncomputable def mporeCL (J : (Fin n → ℝ) →L[ℝ] (Fin n → ℝ)) : MBead n r →L[ℝ] MBead n r :=
  ContinuousLinearMap.pi fun i => ContinuousLinearMap.pi fun k => (ContinuousLinearMap.proj (R := ℝ) i).comp (J.comp (nodeCL k))

theorem mporeCL_apply (J : (Fin n → ℝ) →L[ℝ] (Fin n → ℝ)) (y : MBead n r) : mporeCL J y = mpore J y := rfl

/-- Rates of an axial point in terms of pore concentrations `q`, loadings and water. -/
noncomputable def ptLin (α b f μ : Fin n → ℝ) (B : Fin (r + 1) → Fin (r + 1) → ℝ) (W : Fin (r + 1) → ℝ) (v : MBead n r × MPt (MBead n r) n) :
    MPt (MBead n r) n :=
  (fun i => beadL 1 B W (fun k => α i * v.1 i k + b i * v.2.1 i k) + (f i * (v.2.2 i - v.1 i (Fin.last r))) • surf W,
    fun i => -(μ i * (f i * (v.2.2 i - v.1 i (Fin.last r)))))

noncomputable def ptLinCL (α b f μ : Fin n → ℝ) (B : Fin (r + 1) → Fin (r + 1) → ℝ) (W : Fin (r + 1) → ℝ) :
    MBead n r × MPt (MBead n r) n →L[ℝ] MPt (MBead n r) n :=
  let Q : Fin n → (MBead n r × MPt (MBead n r) n →L[ℝ] (Fin (r + 1) → ℝ)) := fun i =>
    (ContinuousLinearMap.proj (R := ℝ) i).comp (ContinuousLinearMap.fst ℝ (MBead n r) (MPt (MBead n r) n))
  let S := ContinuousLinearMap.snd ℝ (MBead n r) (MPt (MBead n r) n)
  let Y : Fin n → (MBead n r × MPt (MBead n r) n →L[ℝ] (Fin (r + 1) → ℝ)) := fun i =>
    (ContinuousLinearMap.proj (R := ℝ) i).comp ((ContinuousLinearMap.fst ℝ (MBead n r) (Fin n → ℝ)).comp S)
  let C : Fin n → (MBead n r × MPt (MBead n r) n →L[ℝ] ℝ) := fun i =>
    (ContinuousLinearMap.proj (R := ℝ) i).comp ((ContinuousLinearMap.snd ℝ (MBead n r) (Fin n → ℝ)).comp S)
  let D : Fin n → (MBead n r × MPt (MBead n r) n →L[ℝ] ℝ) := fun i =>
    f i • (C i - (ContinuousLinearMap.proj (R := ℝ) (Fin.last r)).comp (Q i))
  (ContinuousLinearMap.pi fun i => (beadCL 1 B W).comp (α i • Q i + b i • Y i) + (D i).smulRight (surf W)).prod
    (ContinuousLinearMap.pi fun i => -(μ i • D i))

variable {α b f μ : Fin n → ℝ} {jac : Fin r → ℝ} {B : Fin (r + 1) → Fin (r + 1) → ℝ} {W : Fin (r + 1) → ℝ}

theorem ptLinCL_apply (v : MBead n r × MPt (MBead n r) n) : ptLinCL α b f μ B W v = ptLin α b f μ B W v := rfl

/-- Rates of an axial point with the isotherm `φ`. -/
noncomputable def ptRhs (φ : (Fin n → ℝ) → Fin n → ℝ) (α b f μ : Fin n → ℝ) (B : Fin (r + 1) → Fin (r + 1) → ℝ) (W : Fin (r + 1) → ℝ)
    (p : MPt (MBead n r) n) : MPt (MBead n r) n := ptLin α b f μ B W (mpore φ p.1, p)

noncomputable def ptCL (J : (Fin n → ℝ) →L[ℝ] (Fin n → ℝ)) (α b f μ : Fin n → ℝ) (B : Fin (r + 1) → Fin (r + 1) → ℝ)
    (W : Fin (r + 1) → ℝ) : MPt (MBead n r) n →L[ℝ] MPt (MBead n r) n :=
  (ptLinCL α b f μ B W).comp (((mporeCL J).comp (ContinuousLinearMap.fst ℝ (MBead n r) (Fin n → ℝ))).prod
    (ContinuousLinearMap.id ℝ (MPt (MBead n r) n)))

variable {J : (Fin n → ℝ) →L[ℝ] (Fin n → ℝ)} {φ : (Fin n → ℝ) → Fin n → ℝ}

theorem ptCL_apply (p : MPt (MBead n r) n) : ptCL J α b f μ B W p = ptRhs J α b f μ B W p := rfl

theorem ptRhs_deriv (hφ : HasFDerivAt φ J 0) : HasFDerivAt (ptRhs φ α b f μ B W) (ptCL J α b f μ B W) 0 := by
  have h1 : HasFDerivAt (mpore (r := r) φ) (mporeCL J) 0 := by
    refine hasFDerivAt_pi.2 fun i => hasFDerivAt_pi.2 fun k => ?_
    have h2 : HasFDerivAt φ J (nodeCL (n := n) k (0 : MBead n r)) := by rw [map_zero]; exact hφ
    exact hasFDerivAt_pi'.1 (h2.comp (0 : MBead n r) (nodeCL k).hasFDerivAt) i
  have h3 : HasFDerivAt (fun p : MPt (MBead n r) n => mpore φ p.1) ((mporeCL J).comp (ContinuousLinearMap.fst ℝ (MBead n r) (Fin n → ℝ))) 0 :=
    HasFDerivAt.comp (g := mpore φ) (f := Prod.fst) (0 : MPt (MBead n r) n) h1 hasFDerivAt_fst
  exact (ptLinCL α b f μ B W).hasFDerivAt.comp (0 : MPt (MBead n r) n) (h3.prodMk (hasFDerivAt_id _))

theorem ptRhs_smooth (hφ : ContDiffAt ℝ 1 φ 0) : ContDiffAt ℝ 1 (ptRhs φ α b f μ B W) 0 := by
  have h1 : ContDiffAt ℝ 1 (mpore (r := r) φ) 0 := by
    refine contDiffAt_pi.2 fun i => contDiffAt_pi.2 fun k => ?_
    have h2 : ContDiffAt ℝ 1 φ (nodeCL (n := n) k (0 : MBead n r)) := by rw [map_zero]; exact hφ
    exact contDiffAt_pi.1 (h2.comp (0 : MBead n r) (nodeCL k).contDiff.contDiffAt) i
  have h3 : ContDiffAt ℝ 1 (fun p : MPt (MBead n r) n => mpore φ p.1) 0 :=
    ContDiffAt.comp (g := mpore φ) (f := Prod.fst) (0 : MPt (MBead n r) n) h1 contDiffAt_fst
  exact (ptLinCL α b f μ B W).contDiff.contDiffAt.comp (0 : MPt (MBead n r) n) (h3.prodMk contDiffAt_id)

theorem ptRhs_zero (h0 : φ 0 = 0) : ptRhs φ α b f μ B W 0 = 0 := by
  have : mpore φ (0 : MBead n r) = 0 := by
    funext i k
    show φ (fun _ => 0) i = 0
    exact congrFun h0 i
  show ptLin α b f μ B W (mpore φ (0 : MBead n r), 0) = 0
  rw [this]
  exact map_zero (ptLinCL α b f μ B W)

/-- What is used of the isotherm's slope `J` and the diffusivities: weights in which the slope is symmetric and positive, and in which the
two kinds of diffusion together level out every gradient. -/
structure CompSlope (J : (Fin n → ℝ) →L[ℝ] (Fin n → ℝ)) (m α b : Fin n → ℝ) : Prop where
  m_pos : ∀ i, 0 < m i
  symm : ∀ x y, ∑ i, m i * (J x i * y i) = ∑ i, m i * (J y i * x i)
  pos : ∀ x, x ≠ 0 → 0 < ∑ i, m i * (J x i * x i)
  loses : ∀ x, x ≠ 0 → 0 < ∑ i, m i * (J x i * (α i * J x i + b i * x i))

variable {m : Fin n → ℝ}

/-- The energy of an axial point. -/
noncomputable def ptE (J : (Fin n → ℝ) →L[ℝ] (Fin n → ℝ)) (m μ : Fin n → ℝ) (W : Fin (r + 1) → ℝ) (p q : MPt (MBead n r) n) : ℝ :=
  (∑ k, W k * ∑ i, m i * (J (fun j => p.1 j k) i * q.1 i k)) + ∑ i, m i / μ i * (p.2 i * q.2 i)

noncomputable def ptEL (J : (Fin n → ℝ) →L[ℝ] (Fin n → ℝ)) (m μ : Fin n → ℝ) (W : Fin (r + 1) → ℝ) :
    MPt (MBead n r) n →L[ℝ] MPt (MBead n r) n →L[ℝ] ℝ :=
  LinearMap.toContinuousBilinearMap (LinearMap.mk₂ ℝ (ptE J m μ W)
    (fun p p' q => by
      have e : ∀ k, J (fun j => (p + p').1 j k) = J (fun j => p.1 j k) + J (fun j => p'.1 j k) := fun k => by rw [← map_add]; rfl
      unfold ptE
      simp only [e, Pi.add_apply, Prod.snd_add, add_mul, mul_add, Finset.sum_add_distrib]
      ring)
    (fun c p q => by
      have e : ∀ k, J (fun j => (c • p).1 j k) = c • J (fun j => p.1 j k) := fun k => by rw [← map_smul]; rfl
      unfold ptE
      simp only [e, Pi.smul_apply, Prod.smul_snd, smul_eq_mul, mul_add, Finset.mul_sum]
      congr 1
      · exact Finset.sum_congr rfl fun k _ => Finset.sum_congr rfl fun i _ => by ring
      · exact Finset.sum_congr rfl fun i _ => by ring)
    (fun p q q' => by
      unfold ptE
      simp only [Pi.add_apply, Prod.snd_add, Prod.fst_add, mul_add, Finset.sum_add_distrib]
      ring)
    (fun c p q => by
      unfold ptE
      simp only [Pi.smul_apply, Prod.smul_snd, Prod.smul_fst, smul_eq_mul, mul_add, Finset.mul_sum]
      congr 1
      · exact Finset.sum_congr rfl fun k _ => Finset.sum_congr rfl fun i _ => by ring
      · exact Finset.sum_congr rfl fun i _ => by ring))

theorem ptEL_apply (p q : MPt (MBead n r) n) : ptEL J m μ W p q = ptE J m μ W p q := rfl

theorem grad_J (y : MBead n r) (i : Fin n) (k : Fin (r + 1)) :
    Spec.grad jac (mpore J y i) k = J (fun j => Spec.grad jac (y j) k) i := by
  have e : (fun j => Spec.grad jac (y j) k) = ∑ l, symmA (radialNodes jac) k l • (fun j => y j l) := by
    funext j
    simp [Spec.grad, Finset.sum_apply]
  rw [e, map_sum, Finset.sum_apply]
  refine Finset.sum_congr rfl fun l _ => ?_
  rw [map_smul]
  rfl

theorem grad_lin (c d : ℝ) (p q : Fin (r + 1) → ℝ) (k : Fin (r + 1)) :
    Spec.grad jac (fun l => c * p l + d * q l) k = c * Spec.grad jac p k + d * Spec.grad jac q k := by
  unfold Spec.grad
  rw [Finset.mul_sum, Finset.mul_sum, ← Finset.sum_add_distrib]
  exact Finset.sum_congr rfl fun l _ => by ring

/-- Rate of the energy. -/
theorem ptE_rate (g : Spec.BeadGrid jac B W) (hμ : ∀ i, 0 < μ i) (p : MPt (MBead n r) n) : ptE J m μ W p (ptRhs J α b f μ B W p) =
    -(∑ k, W k * ∑ i, m i * (J (fun j => Spec.grad jac (p.1 j) k) i * (α i * J (fun j => Spec.grad jac (p.1 j) k) i + b i * Spec.grad jac (p.1 i) k))) -
      ∑ i, m i * (f i * (p.2 i - J (fun j => p.1 j (Fin.last r)) i) ^ 2) := by
  have hW := (g.wpos (Fin.last r)).ne'
  have e1 : ∀ i, wdot W (mpore J p.1 i) ((ptRhs J α b f μ B W p).1 i) =
      -wdot W (Spec.grad jac (mpore J p.1 i)) (Spec.grad jac fun k => α i * mpore J p.1 i k + b i * p.1 i k) +
        f i * (p.2 i - J (fun j => p.1 j (Fin.last r)) i) * J (fun j => p.1 j (Fin.last r)) i := by
    intro i
    have h1 : (ptRhs J α b f μ B W p).1 i = beadL 1 B W (fun k => α i * mpore J p.1 i k + b i * p.1 i k) +
        (f i * (p.2 i - mpore J p.1 i (Fin.last r))) • surf W := rfl
    have h2 : wdot W (mpore J p.1 i) ((ptRhs J α b f μ B W p).1 i) = wdot W (mpore J p.1 i) (beadL 1 B W (fun k => α i * mpore J p.1 i k + b i * p.1 i k)) +
        (f i * (p.2 i - mpore J p.1 i (Fin.last r))) * wdot W (surf W) (mpore J p.1 i) := by
      rw [h1, wdot_comm (surf W)]
      unfold wdot
      rw [Finset.mul_sum, ← Finset.sum_add_distrib]
      exact Finset.sum_congr rfl fun k _ => by simp only [Pi.add_apply, Pi.smul_apply, smul_eq_mul]; ring
    rw [h2, wdot_beadL g, wdot_surf hW, one_mul]
    rfl
  have e2 : ∑ k, W k * ∑ i, m i * (J (fun j => p.1 j k) i * (ptRhs J α b f μ B W p).1 i k) =
      ∑ i, m i * wdot W (mpore J p.1 i) ((ptRhs J α b f μ B W p).1 i) := by
    unfold wdot
    simp only [Finset.mul_sum]
    rw [Finset.sum_comm]
    refine Finset.sum_congr rfl fun i _ => Finset.sum_congr rfl fun k _ => ?_
    simp only [mpore]
    ring
  have e3 : ∑ k, W k * ∑ i, m i * (J (fun j => Spec.grad jac (p.1 j) k) i * (α i * J (fun j => Spec.grad jac (p.1 j) k) i + b i * Spec.grad jac (p.1 i) k)) =
      ∑ i, m i * wdot W (Spec.grad jac (mpore J p.1 i)) (Spec.grad jac fun k => α i * mpore J p.1 i k + b i * p.1 i k) := by
    unfold wdot
    simp only [Finset.mul_sum, grad_lin, grad_J]
    rw [Finset.sum_comm]
    refine Finset.sum_congr rfl fun i _ => Finset.sum_congr rfl fun k _ => ?_
    ring
  unfold ptE
  rw [e2, e3, ← Finset.sum_neg_distrib, ← Finset.sum_sub_distrib, ← Finset.sum_add_distrib]
  refine Finset.sum_congr rfl fun i _ => ?_
  rw [e1]
  have h4 : (ptRhs J α b f μ B W p).2 i = -(μ i * (f i * (p.2 i - J (fun j => p.1 j (Fin.last r)) i))) := rfl
  rw [h4]
  have := (hμ i).ne'
  field_simp
  ring

theorem CompSlope.nonneg (hJ : CompSlope J m α b) (x : Fin n → ℝ) :
    0 ≤ ∑ i, m i * (J x i * x i) ∧ (∑ i, m i * (J x i * x i) = 0 → x = 0) := by
  by_cases h : x = 0
  · exact ⟨by simp [h], fun _ => h⟩
  · exact ⟨(hJ.pos x h).le, fun h0 => absurd h0 (hJ.pos x h).ne'⟩

theorem CompSlope.loss (hJ : CompSlope J m α b) (x : Fin n → ℝ) : 0 ≤ ∑ i, m i * (J x i * (α i * J x i + b i * x i)) ∧
    (∑ i, m i * (J x i * (α i * J x i + b i * x i)) = 0 → x = 0) := by
  by_cases h : x = 0
  · exact ⟨by simp [h], fun _ => h⟩
  · exact ⟨(hJ.loses x h).le, fun h0 => absurd h0 (hJ.loses x h).ne'⟩

theorem bead_const (g : Spec.BeadGrid jac B W) {s : Fin (r + 1) → ℝ} (hs : ∀ k l, s k = s l) : beadL 1 B W s = 0 := by
  have hB : ∀ k, ∑ l, B k l * (1 * s l) = 0 := by
    intro k
    have : ∀ l, B k l * (1 * s l) = B k l * s k := fun l => by rw [hs l k, one_mul]
    simp only [this]
    rw [← Finset.sum_mul, g.rows, zero_mul]
  funext k
  simp only [beadL, hB, mul_zero, Finset.sum_const_zero, neg_zero, zero_div, ite_self]
  rfl

/-- Beads with such an isotherm have such an energy. -/
theorem pt_energy (g : Spec.BeadGrid jac B W) (hJ : CompSlope J m α b) (hf : ∀ i, 0 < f i) (hμ : ∀ i, 0 < μ i) :
    PtEnergy (ptCL J α b f μ B W) (ptEL J m μ W) (J.comp (nodeCL (Fin.last r)))
      (ContinuousLinearMap.id ℝ _) (fun i => m i / μ i) := by
  have hm : ∀ i, 0 < m i / μ i := fun i => div_pos (hJ.m_pos i) (hμ i)
  have key : ∀ p : MPt (MBead n r) n, ptE J m μ W p (ptRhs J α b f μ B W p) = 0 →
      (∀ i k l, p.1 i k = p.1 i l) ∧ ∀ i, p.2 i = J (fun j => p.1 j (Fin.last r)) i := by
    intro p hp
    rw [ptE_rate g hμ] at hp
    have n1 : ∀ k ∈ Finset.univ, 0 ≤ W k * ∑ i, m i * (J (fun j => Spec.grad jac (p.1 j) k) i *
        (α i * J (fun j => Spec.grad jac (p.1 j) k) i + b i * Spec.grad jac (p.1 i) k)) :=
      fun k _ => mul_nonneg (g.wpos k).le (hJ.loss _).1
    have n2 : ∀ i ∈ Finset.univ, 0 ≤ m i * (f i * (p.2 i - J (fun j => p.1 j (Fin.last r)) i) ^ 2) :=
      fun i _ => mul_nonneg (hJ.m_pos i).le (mul_nonneg (hf i).le (sq_nonneg _))
    have s1 := Finset.sum_nonneg n1
    have s2 := Finset.sum_nonneg n2
    have z1 := (Finset.sum_eq_zero_iff_of_nonneg n1).1 (by linarith)
    have z2 := (Finset.sum_eq_zero_iff_of_nonneg n2).1 (by linarith)
    refine ⟨fun i => (c205_rough g (p.1 i)).2.1 (Finset.sum_eq_zero fun k _ => ?_), fun i => ?_⟩
    · have := (hJ.loss _).2 ((mul_eq_zero.1 (z1 k (Finset.mem_univ k))).resolve_left (g.wpos k).ne')
      have h1 : Spec.grad jac (p.1 i) k = 0 := congrFun this i
      rw [h1]; ring
    · have h1 := (mul_eq_zero.1 (z2 i (Finset.mem_univ i))).resolve_left (hJ.m_pos i).ne'
      have h2 := (mul_eq_zero.1 h1).resolve_left (hf i).ne'
      exact sub_eq_zero.1 (pow_eq_zero_iff two_ne_zero |>.1 h2)
  constructor
  · intro p q
    simp only [ptEL_apply, ptE]
    congr 1
    · refine Finset.sum_congr rfl fun k _ => ?_
      rw [hJ.symm (fun j => p.1 j k) (fun j => q.1 j k)]
    · exact Finset.sum_congr rfl fun i _ => by ring
  · intro p
    rw [ptEL_apply]
    exact add_nonneg (Finset.sum_nonneg fun k _ => mul_nonneg (g.wpos k).le (hJ.nonneg _).1)
      (Finset.sum_nonneg fun i _ => mul_nonneg (hm i).le (mul_self_nonneg _))
  · intro p hp
    rw [ptEL_apply] at hp
    have n1 : ∀ k ∈ Finset.univ, 0 ≤ W k * ∑ i, m i * (J (fun j => p.1 j k) i * p.1 i k) :=
      fun k _ => mul_nonneg (g.wpos k).le (hJ.nonneg (fun j => p.1 j k)).1
    have n2 : ∀ i ∈ Finset.univ, 0 ≤ m i / μ i * (p.2 i * p.2 i) := fun i _ => mul_nonneg (hm i).le (mul_self_nonneg _)
    have s1 := Finset.sum_nonneg n1
    have s2 := Finset.sum_nonneg n2
    unfold ptE at hp
    have z1 := (Finset.sum_eq_zero_iff_of_nonneg n1).1 (by linarith)
    have z2 := (Finset.sum_eq_zero_iff_of_nonneg n2).1 (by linarith)
    refine Prod.ext (funext fun i => funext fun k => ?_) (funext fun i => ?_)
    · exact congrFun ((hJ.nonneg (fun j => p.1 j k)).2 ((mul_eq_zero.1 (z1 k (Finset.mem_univ k))).resolve_left (g.wpos k).ne')) i
    · exact mul_self_eq_zero.1 ((mul_eq_zero.1 (z2 i (Finset.mem_univ i))).resolve_left (hm i).ne')
  · intro p c
    rw [ptEL_apply]
    simp [ptE]
  · exact fun i => (hm i).le
  · intro p
    rw [ptEL_apply, ptCL_apply, ptE_rate g hμ]
    have s1 := Finset.sum_nonneg fun k (_ : k ∈ Finset.univ) => mul_nonneg (g.wpos k).le (hJ.loss fun j => Spec.grad jac (p.1 j) k).1
    have s2 : 0 ≤ ∑ i, m i * (f i * (p.2 i - J (fun j => p.1 j (Fin.last r)) i) ^ 2) :=
      Finset.sum_nonneg fun i _ => mul_nonneg (hJ.m_pos i).le (mul_nonneg (hf i).le (sq_nonneg _))
    linarith
  · intro p hp
    obtain ⟨h1, h2⟩ := key p hp
    have hnode : ∀ k, (fun j => p.1 j k) = fun j => p.1 j (Fin.last r) := fun k => funext fun j => h1 j k _
    refine ⟨?_, funext h2⟩
    rw [ptCL_apply]
    refine Prod.ext (funext fun i => ?_) (funext fun i => ?_)
    · show beadL 1 B W (fun k => α i * J (fun j => p.1 j k) i + b i * p.1 i k) +
        (f i * (p.2 i - J (fun j => p.1 j (Fin.last r)) i)) • surf W = 0
      rw [bead_const g (fun k l => by rw [hnode k, hnode l, h1 i k l]), h2 i, sub_self, mul_zero, zero_smul, add_zero]
    · show -(μ i * (f i * (p.2 i - J (fun j => p.1 j (Fin.last r)) i))) = 0
      rw [h2 i, sub_self]; ring
  · intro p hp h0
    obtain ⟨h1, h2⟩ := key p hp
    have h3 : (fun j => p.1 j (Fin.last r)) = 0 := by
      refine (hJ.nonneg _).2 (Finset.sum_eq_zero fun i _ => ?_)
      rw [← h2 i, h0]
      simp
    refine Prod.ext (funext fun i => funext fun k => ?_) h0
    rw [h1 i k (Fin.last r)]
    exact congrFun h3 i

end
end WTM
