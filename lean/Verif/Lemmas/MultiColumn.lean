import Mathlib.Analysis.InnerProductSpace.Positive
import Mathlib.Analysis.Normed.Module.HahnBanach
import Mathlib.Topology.Algebra.Module.FiniteDimensionBilinear
import Verif.Lemmas.AxialForm
import Verif.Lemmas.LocalSettle
import Verif.Lemmas.Global
import Verif.Props.Stationary

/-! A column with any number of compounds in competition, fed with a constant water: what of one axial point is enough for the whole
column to settle near the exhausted state. -/
set_option autoImplicit false
namespace WTM
open BigOperators Set Topology Filter

section
variable {n z : ℕ} {A : Fin (z + 1) → Fin (z + 1) → ℝ} {G : Fin z → Fin z → ℝ}

/-- The axial product as a sum of squares. -/
theorem axial_factor (hG : AxialForm A G) : ∃ (m : ℕ) (R : Fin m → Fin z → ℝ), ∀ v w, G v w = ∑ a, R a v * R a w := by
  have hp : (Matrix.of G).PosSemidef := by
    rw [Matrix.posSemidef_iff_dotProduct_mulVec]
    refine ⟨?_, fun x => ?_⟩
    · ext v w
      simp [hG.symm v w]
    · have := hG.pos x
      refine this.trans (le_of_eq ?_)
      simp only [gdot, dotProduct, Matrix.mulVec, Matrix.of_apply, star_trivial, Finset.mul_sum]
      exact Finset.sum_congr rfl fun v _ => Finset.sum_congr rfl fun w _ => by ring
  obtain ⟨m, v, hv⟩ := Matrix.posSemidef_iff_eq_sum_vecMulVec.1 hp
  refine ⟨m, v, fun i j => ?_⟩
  have := congrFun (congrFun hv i) j
  simpa [Matrix.sum_apply, Matrix.vecMulVec_apply] using this

theorem gdot_factor {m : ℕ} {R : Fin m → Fin z → ℝ} (hR : ∀ v w, G v w = ∑ a, R a v * R a w) (c d : Fin z → ℝ) :
    gdot G c d = ∑ a, (∑ v, R a v * c v) * ∑ w, R a w * d w := by
  unfold gdot
  simp only [hR, Finset.sum_mul]
  have : ∀ v : Fin z, ∑ w, ∑ a, R a v * R a w * (c v * d w) = ∑ a, ∑ w, R a v * R a w * (c v * d w) := fun v => Finset.sum_comm
  simp only [this]
  rw [Finset.sum_comm]
  refine Finset.sum_congr rfl fun a _ => Finset.sum_congr rfl fun v _ => ?_
  rw [Finset.mul_sum]
  exact Finset.sum_congr rfl fun w _ => by ring

/-- Only the profile at rest is left out of the squares. -/
theorem factor_zero {V : Type} [NormedAddCommGroup V] [NormedSpace ℝ V] (hG : AxialForm A G) {m : ℕ} {R : Fin m → Fin z → ℝ}
    (hR : ∀ v w, G v w = ∑ a, R a v * R a w) {p : Fin z → V} (h : ∀ a, ∑ w, R a w • p w = 0) (w : Fin z) : p w = 0 := by
  refine SeparatingDual.eq_zero_of_forall_dual_eq_zero (R := ℝ) fun ℓ => ?_
  have h1 : ∀ a, ∑ w, R a w * ℓ (p w) = 0 := fun a => by
    have := congrArg ℓ (h a)
    simpa [map_sum] using this
  have h2 : gdot G (fun w => ℓ (p w)) (fun w => ℓ (p w)) = 0 := by
    rw [gdot_factor hR]
    exact Finset.sum_eq_zero fun a _ => by rw [h1 a, zero_mul]
  exact congrFun (hG.definite _ h2) w
end

section
variable {X : Type} [NormedAddCommGroup X] [NormedSpace ℝ X] {n N z : ℕ}

/-- State of one axial point: beads and water. -/
abbrev MPt (X : Type) (n : ℕ) := X × (Fin n → ℝ)

/-- An energy of one axial point that the exchange between beads and water only takes away; that of the water is a sum of squares of
quantities `ℓ` with weights `lam`. -/
structure PtEnergy (L : MPt X n →L[ℝ] MPt X n) (e : MPt X n →L[ℝ] MPt X n →L[ℝ] ℝ) (h : X →L[ℝ] (Fin n → ℝ))
    (ℓ : (Fin n → ℝ) →L[ℝ] (Fin N → ℝ)) (lam : Fin N → ℝ) : Prop where
  symm : ∀ p q, e p q = e q p
  pos : ∀ p, 0 ≤ e p p
  definite : ∀ p, e p p = 0 → p = 0
  water : ∀ p c, e p (0, c) = ∑ a, lam a * (ℓ p.2 a * ℓ c a)
  lam_nonneg : ∀ a, 0 ≤ lam a
  falls : ∀ p, e p (L p) ≤ 0
  rest : ∀ p, e p (L p) = 0 → L p = 0 ∧ p.2 = h p.1
  whole : ∀ p, e p (L p) = 0 → p.2 = 0 → p = 0

variable {L : MPt X n →L[ℝ] MPt X n} {e : MPt X n →L[ℝ] MPt X n →L[ℝ] ℝ} {h : X →L[ℝ] (Fin n → ℝ)}
  {ℓ : (Fin n → ℝ) →L[ℝ] (Fin N → ℝ)} {lam : Fin N → ℝ} {κ : ℝ} {A : Fin (z + 1) → Fin (z + 1) → ℝ} {G : Fin z → Fin z → ℝ}

/-- What the flow takes away. -/
noncomputable def mflow (κ : ℝ) (A : Fin (z + 1) → Fin (z + 1) → ℝ) (u : Fin z → MPt X n) (w : Fin z) : Fin n → ℝ :=
  fun i => κ * ∑ w' : Fin z, A w.succ w'.succ * (u w').2 i

/-- Rates of the excesses below the inlet. -/
noncomputable def mcolCL (L : MPt X n →L[ℝ] MPt X n) (κ : ℝ) (A : Fin (z + 1) → Fin (z + 1) → ℝ) :
    (Fin z → MPt X n) →L[ℝ] (Fin z → MPt X n) :=
  ContinuousLinearMap.pi fun w => L.comp (ContinuousLinearMap.proj w) -
    (ContinuousLinearMap.inr ℝ X (Fin n → ℝ)).comp (κ • ∑ w' : Fin z, A w.succ w'.succ •
      (ContinuousLinearMap.snd ℝ X (Fin n → ℝ)).comp (ContinuousLinearMap.proj w'))

theorem mcolCL_apply (u : Fin z → MPt X n) (w : Fin z) : mcolCL L κ A u w = L (u w) - ((0 : X), mflow κ A u w) := by
  simp [mcolCL]
  refine Prod.ext ?_ (funext fun i => ?_)
  · simp [Prod.fst_sum]
  · simp [Prod.snd_sum, mflow]

/-- One of the squares. -/
noncomputable def mpart {m : ℕ} (R : Fin m → Fin z → ℝ) (a : Fin m) : (Fin z → MPt X n) →L[ℝ] MPt X n :=
  ∑ w, R a w • ContinuousLinearMap.proj w

theorem mpart_apply {m : ℕ} (R : Fin m → Fin z → ℝ) (a : Fin m) (u : Fin z → MPt X n) : mpart R a u = ∑ w, R a w • u w := by
  simp [mpart]

theorem mpart_water {m : ℕ} (R : Fin m → Fin z → ℝ) (a : Fin m) (u : Fin z → MPt X n) (i : Fin n) :
    (mpart R a u).2 i = ∑ w, R a w * (u w).2 i := by
  simp [mpart_apply, Prod.snd_sum]

theorem mpart_rate {m : ℕ} (R : Fin m → Fin z → ℝ) (a : Fin m) (u : Fin z → MPt X n) :
    mpart R a (mcolCL L κ A u) = L (mpart R a u) - ((0 : X), fun i => ∑ w, R a w * mflow κ A u w i) := by
  simp only [mpart_apply, mcolCL_apply, smul_sub, Finset.sum_sub_distrib, map_sum, map_smul]
  congr 1
  refine Prod.ext ?_ (funext fun i => ?_)
  · simp [Prod.fst_sum]
  · simp [Prod.snd_sum]

/-- Loss of energy in the beads and films, and with the flow. -/
noncomputable def mloss {m : ℕ} (R : Fin m → Fin z → ℝ) (L : MPt X n →L[ℝ] MPt X n) (e : MPt X n →L[ℝ] MPt X n →L[ℝ] ℝ)
    (ℓ : (Fin n → ℝ) →L[ℝ] (Fin N → ℝ)) (lam : Fin N → ℝ)
    (κ : ℝ) (A : Fin (z + 1) → Fin (z + 1) → ℝ) (G : Fin z → Fin z → ℝ) (u : Fin z → MPt X n) : ℝ :=
  (∑ a, -e (mpart R a u) (L (mpart R a u))) +
    κ * ∑ i, lam i * gdot G (fun w => ℓ (u w).2 i) (fun w => ∑ w' : Fin z, A w.succ w'.succ * ℓ (u w').2 i)

theorem mpart_form {m : ℕ} (R : Fin m → Fin z → ℝ) (a : Fin m) (u : Fin z → MPt X n) (i : Fin N) :
    ℓ (mpart R a u).2 i = ∑ w, R a w * ℓ (u w).2 i := by
  simp [mpart_apply, Prod.snd_sum, map_sum]

theorem mflow_form {m : ℕ} (R : Fin m → Fin z → ℝ) (a : Fin m) (u : Fin z → MPt X n) (i : Fin N) :
    ℓ (fun j => ∑ w, R a w * mflow κ A u w j) i = κ * ∑ w, R a w * ∑ w' : Fin z, A w.succ w'.succ * ℓ (u w').2 i := by
  have e : (fun j => ∑ w, R a w * mflow κ A u w j) = κ • ∑ w, R a w • ∑ w' : Fin z, A w.succ w'.succ • (u w').2 := by
    funext j
    simp only [mflow, Pi.smul_apply, Finset.sum_apply, smul_eq_mul, Finset.mul_sum]
    exact Finset.sum_congr rfl fun w _ => Finset.sum_congr rfl fun w' _ => by ring
  rw [e]
  simp [map_sum]

theorem mpart_energy (he : PtEnergy L e h ℓ lam) {m : ℕ} {R : Fin m → Fin z → ℝ} (hR : ∀ v w, G v w = ∑ a, R a v * R a w)
    (u : Fin z → MPt X n) : ∑ a, e (mpart R a u) (mpart R a (mcolCL L κ A u)) = -mloss R L e ℓ lam κ A G u := by
  have e1 : ∀ a, e (mpart R a u) (mpart R a (mcolCL L κ A u)) = e (mpart R a u) (L (mpart R a u)) -
      κ * ∑ i, lam i * ((∑ w, R a w * ℓ (u w).2 i) * ∑ w, R a w * ∑ w' : Fin z, A w.succ w'.succ * ℓ (u w').2 i) := by
    intro a
    rw [mpart_rate, map_sub, he.water]
    congr 1
    rw [Finset.mul_sum]
    refine Finset.sum_congr rfl fun i _ => ?_
    rw [mpart_form, mflow_form]
    ring
  simp only [e1, Finset.sum_sub_distrib, ← Finset.mul_sum]
  unfold mloss
  have e2 : ∑ i, lam i * gdot G (fun w => ℓ (u w).2 i) (fun w => ∑ w' : Fin z, A w.succ w'.succ * ℓ (u w').2 i) =
      ∑ a, ∑ i, lam i * ((∑ w, R a w * ℓ (u w).2 i) * ∑ w, R a w * ∑ w' : Fin z, A w.succ w'.succ * ℓ (u w').2 i) := by
    rw [Finset.sum_comm]
    refine Finset.sum_congr rfl fun i _ => ?_
    rw [gdot_factor hR, Finset.mul_sum]
  rw [e2, Finset.sum_neg_distrib]
  ring

theorem mloss_nonneg (he : PtEnergy L e h ℓ lam) (hG : AxialForm A G) {m : ℕ} {R : Fin m → Fin z → ℝ}
    (hR : ∀ v w, G v w = ∑ a, R a v * R a w) (hκ : 0 < κ) (u : Fin z → MPt X n) : 0 ≤ mloss R L e ℓ lam κ A G u ∧
      (mloss R L e ℓ lam κ A G u = 0 → ∀ w, L (u w) = 0 ∧ (u w).2 = h (u w).1) := by
  have hn : ∀ a ∈ Finset.univ, 0 ≤ -e (mpart R a u) (L (mpart R a u)) := fun a _ => neg_nonneg.2 (he.falls _)
  have h1 := Finset.sum_nonneg hn
  have h2 : 0 ≤ κ * ∑ i, lam i * gdot G (fun w => ℓ (u w).2 i) (fun w => ∑ w' : Fin z, A w.succ w'.succ * ℓ (u w').2 i) :=
    mul_nonneg hκ.le (Finset.sum_nonneg fun i _ => mul_nonneg (he.lam_nonneg i) (hG.falls _))
  unfold mloss
  refine ⟨add_nonneg h1 h2, fun h0 w => ?_⟩
  have z1 := (Finset.sum_eq_zero_iff_of_nonneg hn).1 (by linarith)
  have z2 : ∀ a, L (mpart R a u) = 0 ∧ (mpart R a u).2 = h (mpart R a u).1 := fun a =>
    he.rest _ (by have := z1 a (Finset.mem_univ a); linarith)
  refine ⟨factor_zero hG hR (p := fun w => L (u w)) (fun a => ?_) w, ?_⟩
  · rw [← (z2 a).1, mpart_apply]
    simp [map_sum]
  · have := factor_zero hG hR (p := fun w => (u w).2 - h (u w).1) (fun a => ?_) w
    · exact sub_eq_zero.1 this
    · have z3 := sub_eq_zero.2 (z2 a).2
      rw [← z3, mpart_apply]
      simp [Prod.snd_sum, Prod.fst_sum, map_sum, smul_sub, Finset.sum_sub_distrib]

variable [FiniteDimensional ℝ X]

theorem mcol_settle (he : PtEnergy L e h ℓ lam) (hA : Spec.MovesAll A) (hG : AxialForm A G) (hκ : 0 < κ) :
    ∃ C ω : ℝ, 0 < C ∧ 0 < ω ∧ ∀ (x : ℝ → Fin z → MPt X n) (T : ℝ),
      (∀ t ∈ Icc 0 T, HasDerivWithinAt x (mcolCL L κ A (x t)) (Icc 0 T) t) →
      ∀ t ∈ Icc 0 T, ‖x t‖ ≤ C * Real.exp (-(ω * t)) * ‖x 0‖ := by
  obtain ⟨m, R, hR⟩ := axial_factor hG
  refine settle_norm (mcolCL L κ A) (fun u => ∑ a, e (mpart R a u) (mpart R a u)) (fun u => 2 * mloss R L e ℓ lam κ A G u) ?_
    (fun u => Finset.sum_nonneg fun a _ => he.pos _) ?_ ?_ ?_ (fun u => mul_nonneg (by norm_num) (mloss_nonneg he hG hR hκ u).1) ?_
  · fun_prop
  · intro u hu
    have z1 := (Finset.sum_eq_zero_iff_of_nonneg fun a _ => he.pos (mpart R a u)).1 hu
    funext w
    exact factor_zero hG hR (fun a => by rw [← mpart_apply]; exact he.definite _ (z1 a (Finset.mem_univ a))) w
  · intro c u
    rw [Finset.mul_sum]
    refine Finset.sum_congr rfl fun a _ => ?_
    simp only [map_smul, smul_apply, smul_eq_mul]
    ring
  · intro x t hx
    have hd : ∀ a, HasDerivAt (fun t => e (mpart R a (x t)) (mpart R a (x t))) (2 * e (mpart R a (x t)) (mpart R a (mcolCL L κ A (x t)))) t := by
      intro a
      have h1 : HasDerivAt (fun t => mpart R a (x t)) (mpart R a (mcolCL L κ A (x t))) t :=
        (mpart (X := X) (n := n) R a).hasFDerivAt.comp_hasDerivAt t hx
      have h2 : HasDerivAt (fun t => e (mpart R a (x t))) (e (mpart R a (mcolCL L κ A (x t)))) t := e.hasFDerivAt.comp_hasDerivAt t h1
      refine (h2.clm_apply h1).congr_deriv ?_
      rw [he.symm (mpart R a (mcolCL L κ A (x t)))]
      ring
    refine (HasDerivAt.fun_sum fun a _ => hd a).congr_deriv ?_
    rw [← Finset.mul_sum, mpart_energy he hR]
    ring
  · intro x hx h0
    have hL : ∀ t ∈ Ioo (0 : ℝ) 1, ∀ w, L (x t w) = 0 ∧ (x t w).2 = h (x t w).1 := by
      intro t ht
      have h3 := h0 t ht.1
      exact (mloss_nonneg he hG hR hκ (x t)).2 (by linarith)
    refine ⟨1 / 2, by norm_num, ?_⟩
    have ht : (1 / 2 : ℝ) ∈ Ioo (0 : ℝ) 1 := by norm_num
    have hAc : ∀ (i : Fin n) (w : Fin z), ∑ w' : Fin z, A w.succ w'.succ * (x (1 / 2) w').2 i = 0 := by
      intro i w
      have hd := hasDerivAt_pi.1 (hx (1 / 2)) w
      rw [mcolCL_apply, (hL _ ht w).1, zero_sub] at hd
      have d1 := (ContinuousLinearMap.fst ℝ X (Fin n → ℝ)).hasFDerivAt.comp_hasDerivAt (1 / 2 : ℝ) hd
      have d2 := (ContinuousLinearMap.snd ℝ X (Fin n → ℝ)).hasFDerivAt.comp_hasDerivAt (1 / 2 : ℝ) hd
      have d3 := d2.sub (h.hasFDerivAt.comp_hasDerivAt (1 / 2 : ℝ) d1)
      have d4 : HasDerivAt (((ContinuousLinearMap.snd ℝ X (Fin n → ℝ)) ∘ fun t => x t w) - (h ∘ ((ContinuousLinearMap.fst ℝ X (Fin n → ℝ)) ∘ fun t => x t w)))
          0 (1 / 2 : ℝ) := by
        refine (hasDerivAt_const (1 / 2 : ℝ) (0 : Fin n → ℝ)).congr_of_eventuallyEq ?_
        filter_upwards [Ioo_mem_nhds ht.1 ht.2] with s hs
        show (x s w).2 - h (x s w).1 = 0
        rw [(hL s hs w).2, sub_self]
      have d5 := d3.unique d4
      simp only [ContinuousLinearMap.coe_snd', ContinuousLinearMap.coe_fst', Prod.snd_neg, Prod.fst_neg, neg_zero, map_zero, sub_zero, neg_eq_zero] at d5
      have := congrFun d5 i
      exact (mul_eq_zero.1 this).resolve_left hκ.ne'
    have hc : ∀ (i : Fin n) (w : Fin z), (x (1 / 2) w).2 i = 0 := by
      intro i w
      have := (hA (Fin.cons 0 fun w => (x (1 / 2) w).2 i)).1 (fun w hw => by
        obtain ⟨w', rfl⟩ := Fin.exists_succ_eq.2 hw
        rw [Fin.sum_univ_succ]
        simp only [Fin.cons_zero, Fin.cons_succ, mul_zero, zero_add]
        exact hAc i w')
      simpa using this w.succ
    funext w
    refine he.whole _ ?_ (funext fun i => hc i w)
    rw [(hL _ ht w).1, map_zero]

/-- Rates of the excesses of the beads at the inlet, whose water is the influent. -/
noncomputable def minletCL (L : MPt X n →L[ℝ] MPt X n) : X →L[ℝ] X :=
  (ContinuousLinearMap.fst ℝ X (Fin n → ℝ)).comp (L.comp (ContinuousLinearMap.inl ℝ X (Fin n → ℝ)))

omit [FiniteDimensional ℝ X] in
theorem minletCL_apply (q : X) : minletCL L q = (L (q, 0)).1 := rfl

theorem minlet_settle (he : PtEnergy L e h ℓ lam) :
    ∃ C ω : ℝ, 0 < C ∧ 0 < ω ∧ ∀ (x : ℝ → X) (T : ℝ),
      (∀ t ∈ Icc 0 T, HasDerivWithinAt x (minletCL L (x t)) (Icc 0 T) t) →
      ∀ t ∈ Icc 0 T, ‖x t‖ ≤ C * Real.exp (-(ω * t)) * ‖x 0‖ := by
  set I := ContinuousLinearMap.inl ℝ X (Fin n → ℝ) with hI
  have key : ∀ q, e (I q) (I (minletCL L q)) = e (I q) (L (I q)) := by
    intro q
    have h1 : L (I q) = I (minletCL L q) + (0, (L (I q)).2) := by
      refine Prod.ext ?_ ?_
      · simp [hI, minletCL_apply]
      · simp [hI]
    have h2 := he.water (I q) (L (I q)).2
    have h3 : (I q).2 = 0 := by simp [hI]
    simp only [h3, map_zero, Pi.zero_apply, zero_mul, mul_zero, Finset.sum_const_zero] at h2
    conv_rhs => rw [h1, map_add, h2, add_zero]
  refine settle_norm (minletCL L) (fun q => e (I q) (I q)) (fun q => -2 * e (I q) (L (I q))) ?_ (fun q => he.pos _) ?_ ?_ ?_ ?_ ?_
  · fun_prop
  · intro q hq
    have := he.definite _ hq
    exact (Prod.ext_iff.1 this).1
  · intro c q
    simp only [map_smul, smul_apply, smul_eq_mul]
    ring
  · intro x t hx
    have h1 : HasDerivAt (fun t => I (x t)) (I (minletCL L (x t))) t := I.hasFDerivAt.comp_hasDerivAt t hx
    have h2 : HasDerivAt (fun t => e (I (x t))) (e (I (minletCL L (x t)))) t := e.hasFDerivAt.comp_hasDerivAt t h1
    refine (h2.clm_apply h1).congr_deriv ?_
    rw [he.symm (I (minletCL L (x t))), key]
    ring
  · intro q
    have := he.falls (I q)
    linarith
  · intro x _ h0
    refine ⟨1, one_pos, ?_⟩
    have h1 := h0 1 one_pos
    have := he.whole (I (x 1)) (by linarith) (by simp [hI])
    exact (Prod.ext_iff.1 this).1

/-- Excesses of a whole column. -/
abbrev MBed (X : Type) (n z : ℕ) := X × (Fin z → MPt X n)

/-- Rates of a whole column with the rates `F` of one axial point. -/
noncomputable def mbedRhs (F : MPt X n → MPt X n) (κ : ℝ) (A : Fin (z + 1) → Fin (z + 1) → ℝ) (v : MBed X n z) : MBed X n z :=
  ((F (v.1, 0)).1, fun w => F (v.2 w) - ((0 : X), mflow κ A v.2 w))

noncomputable def mbedCL (L : MPt X n →L[ℝ] MPt X n) (κ : ℝ) (A : Fin (z + 1) → Fin (z + 1) → ℝ) : MBed X n z →L[ℝ] MBed X n z :=
  (minletCL L).prodMap (mcolCL L κ A)

theorem mbed_settle (he : PtEnergy L e h ℓ lam) (hA : Spec.MovesAll A) (hG : AxialForm A G) (hκ : 0 < κ) :
    ∃ C ω : ℝ, 0 < C ∧ 0 < ω ∧ ∀ v t, 0 ≤ t → ‖linFlow (mbedCL L κ A) v t‖ ≤ C * Real.exp (-(ω * t)) * ‖v‖ := by
  obtain ⟨C1, ω1, hC1, hω1, h1⟩ := mcol_settle he hA hG hκ
  obtain ⟨C2, ω2, hC2, hω2, h2⟩ := minlet_settle he
  refine ⟨max C1 C2, min ω1 ω2, lt_max_of_lt_left hC1, lt_min hω1 hω2, fun v t ht => ?_⟩
  have e1 : C1 * Real.exp (-(ω1 * t)) ≤ max C1 C2 * Real.exp (-(min ω1 ω2 * t)) :=
    mul_le_mul (le_max_left _ _) (Real.exp_le_exp.2 (neg_le_neg (mul_le_mul_of_nonneg_right (min_le_left _ _) ht))) (Real.exp_pos _).le
      (le_max_of_le_left hC1.le)
  have e2 : C2 * Real.exp (-(ω2 * t)) ≤ max C1 C2 * Real.exp (-(min ω1 ω2 * t)) :=
    mul_le_mul (le_max_right _ _) (Real.exp_le_exp.2 (neg_le_neg (mul_le_mul_of_nonneg_right (min_le_right _ _) ht))) (Real.exp_pos _).le
      (le_max_of_le_left hC1.le)
  have hx := fun s => linFlow_deriv (mbedCL L κ A) v s
  have d2 := h2 (fun s => (linFlow (mbedCL L κ A) v s).1) t
    (fun s _ => ((ContinuousLinearMap.fst ℝ X (Fin z → MPt X n)).hasFDerivAt.comp_hasDerivAt s (hx s)).hasDerivWithinAt) t ⟨ht, le_rfl⟩
  have d1 := h1 (fun s => (linFlow (mbedCL L κ A) v s).2) t
    (fun s _ => ((ContinuousLinearMap.snd ℝ X (Fin z → MPt X n)).hasFDerivAt.comp_hasDerivAt s (hx s)).hasDerivWithinAt) t ⟨ht, le_rfl⟩
  simp only [linFlow_zero] at d1 d2
  refine norm_prod_le_iff.2 ⟨d2.trans ?_, d1.trans ?_⟩
  · exact mul_le_mul e2 (norm_fst_le v) (norm_nonneg _) (by positivity)
  · exact mul_le_mul e1 (norm_snd_le v) (norm_nonneg _) (by positivity)

omit [FiniteDimensional ℝ X] in
theorem mbed_small {F : MPt X n → MPt X n} (hF : HasFDerivAt F L 0) (h0 : F 0 = 0) : ∀ η > 0, ∃ δ > 0, ∀ v : MBed X n z, ‖v‖ ≤ δ →
    ‖mbedRhs F κ A v - mbedCL L κ A v‖ ≤ η * ‖v‖ := by
  intro η hη
  have ho := (hasFDerivAt_iff_isLittleO_nhds_zero.1 hF).def hη
  obtain ⟨d, hd, hs⟩ := Metric.eventually_nhds_iff.1 ho
  have hρ : ∀ p : MPt X n, ‖p‖ ≤ d / 2 → ‖F p - L p‖ ≤ η * ‖p‖ := by
    intro p hp
    have := hs (y := p) (by rw [dist_zero_right]; linarith)
    rwa [zero_add, h0, sub_zero] at this
  refine ⟨d / 2, half_pos hd, fun v hv => ?_⟩
  have hη' : 0 ≤ η * ‖v‖ := by positivity
  have hb : ∀ p : MPt X n, ‖p‖ ≤ ‖v‖ → ‖F p - L p‖ ≤ η * ‖v‖ := fun p hp =>
    (hρ p (hp.trans hv)).trans (mul_le_mul_of_nonneg_left hp hη.le)
  refine norm_prod_le_iff.2 ⟨?_, (pi_norm_le_iff_of_nonneg hη').2 fun w => ?_⟩
  · refine (norm_fst_le (F (v.1, 0) - L (v.1, 0))).trans (hb (v.1, 0) ?_)
    exact norm_prod_le_iff.2 ⟨norm_fst_le v, by simp⟩
  · have e1 : (mbedRhs F κ A v - mbedCL L κ A v).2 w = F (v.2 w) - L (v.2 w) := by
      show F (v.2 w) - ((0 : X), mflow κ A v.2 w) - mcolCL L κ A v.2 w = _
      rw [mcolCL_apply]
      abel
    rw [e1]
    exact hb _ ((norm_le_pi_norm v.2 w).trans (norm_snd_le v))

theorem mbed_local {F : MPt X n → MPt X n} (he : PtEnergy L e h ℓ lam) (hA : Spec.MovesAll A) (hG : AxialForm A G) (hκ : 0 < κ)
    (hF : HasFDerivAt F L 0) (h0 : F 0 = 0) :
    ∃ δ C ω : ℝ, 0 < δ ∧ 0 < C ∧ 0 < ω ∧ ∀ (x : ℝ → MBed X n z) (T : ℝ),
      (∀ t ∈ Icc 0 T, HasDerivWithinAt x (mbedRhs F κ A (x t)) (Icc 0 T) t) → ‖x 0‖ ≤ δ →
      ∀ t ∈ Icc 0 T, ‖x t‖ ≤ C * Real.exp (-(ω * t)) * ‖x 0‖ := by
  obtain ⟨C, ω, hC, hω, hM⟩ := mbed_settle he hA hG hκ
  obtain ⟨δ, hδ, hx⟩ := local_settle hω hC hM (mbed_small (κ := κ) (A := A) hF h0)
  refine ⟨δ, 2 * C, ω / 4, hδ, by positivity, by positivity, fun x T hd hx0 t ht => ?_⟩
  exact hx x T (fun s hs => by rw [add_sub_cancel]; exact hd s hs) hx0 t ht

/-- From every state near the exhausted one there is a run for all time, and exactly one. -/
theorem mbed_run {F : MPt X n → MPt X n} (he : PtEnergy L e h ℓ lam) (hA : Spec.MovesAll A) (hG : AxialForm A G) (hκ : 0 < κ)
    (hs : ContDiffAt ℝ 1 F 0) (hF : HasFDerivAt F L 0) (h0 : F 0 = 0) :
    ∃ δ : ℝ, 0 < δ ∧ ∀ v : MBed X n z, ‖v‖ ≤ δ → ∃ x : ℝ → MBed X n z, x 0 = v ∧
      (∀ T, ∀ t ∈ Icc 0 T, HasDerivWithinAt x (mbedRhs F κ A (x t)) (Icc 0 T) t) ∧
      ∀ (T : ℝ) (x' : ℝ → MBed X n z), x' 0 = v → (∀ t ∈ Icc 0 T, HasDerivWithinAt x' (mbedRhs F κ A (x' t)) (Icc 0 T) t) →
        ∀ t ∈ Icc 0 T, x' t = x t := by
  obtain ⟨K, s, hsn, hK⟩ := hs.exists_lipschitzOnWith
  obtain ⟨F', hF', heq⟩ := hK.extend_finite_dimension
  obtain ⟨d, hd, hds⟩ := Metric.mem_nhds_iff.1 hsn
  set ρ := d / 2 with hρ
  have hρ0 : 0 < ρ := half_pos hd
  have hin : ∀ p : MPt X n, ‖p‖ ≤ ρ → F p = F' p := fun p hp => heq (hds (by
    rw [Metric.mem_ball, dist_zero_right]; linarith))
  have hD : HasFDerivAt F' L 0 := by
    refine hF.congr_of_eventuallyEq ?_
    filter_upwards [Metric.ball_mem_nhds (0 : MPt X n) hρ0] with p hp
    rw [Metric.mem_ball, dist_zero_right] at hp
    exact (hin p hp.le).symm
  have h0' : F' 0 = 0 := by rw [← hin 0 (by simpa using hρ0.le), h0]
  have hstay : ∀ F1 : MPt X n → MPt X n, HasFDerivAt F1 L 0 → F1 0 = 0 → ∃ δ > 0, ∀ v : MBed X n z, ‖v‖ ≤ δ →
      ∀ T : ℝ, ∀ y : ℝ → MBed X n z, y 0 = v →
      (∀ t ∈ Icc 0 T, HasDerivWithinAt y (mbedRhs F1 κ A (y t)) (Icc 0 T) t) → ∀ t ∈ Icc 0 T, ‖y t‖ ≤ ρ := by
    intro F1 hD1 h01
    obtain ⟨δ, C, ω, hδ, hC, hω, hx⟩ := mbed_local (z := z) he hA hG hκ hD1 h01
    refine ⟨min δ (ρ / C), lt_min hδ (div_pos hρ0 hC), fun v hv T y hy0 hy t ht => ?_⟩
    have h1 := hx y T hy (by rw [hy0]; exact hv.trans (min_le_left _ _)) t ht
    have h2 : Real.exp (-(ω * t)) ≤ 1 := Real.exp_le_one_iff.2 (by have := mul_nonneg hω.le ht.1; linarith)
    have h3 : C * ‖v‖ ≤ ρ := by
      have := mul_le_mul_of_nonneg_left (hv.trans (min_le_right _ _)) hC.le
      rwa [mul_div_cancel₀ _ hC.ne'] at this
    rw [hy0] at h1
    have h4 : C * Real.exp (-(ω * t)) * ‖v‖ ≤ C * 1 * ‖v‖ :=
      mul_le_mul_of_nonneg_right (mul_le_mul_of_nonneg_left h2 hC.le) (norm_nonneg v)
    linarith
  obtain ⟨δ1, hδ1, hb1⟩ := hstay F' hD h0'
  obtain ⟨δ2, hδ2, hb2⟩ := hstay F hF h0
  refine ⟨min δ1 δ2, lt_min hδ1 hδ2, fun v hv => ?_⟩
  have hb : ∀ T : ℝ, 0 ≤ T → ∀ y : ℝ → MBed X n z, y 0 = v →
      (∀ t ∈ Icc 0 T, HasDerivWithinAt y (mbedRhs F' κ A (y t)) (Icc 0 T) t) → ‖y T‖ ≤ ρ := fun T hT y hy0 hy =>
    hb1 v (hv.trans (min_le_left _ _)) T y hy0 hy T ⟨hT, le_rfl⟩
  have hcong : ∀ v : MBed X n z, ‖v‖ ≤ ρ → mbedRhs F κ A v = mbedRhs F' κ A v := by
    intro v hv
    unfold mbedRhs
    rw [hin (v.1, 0) (norm_prod_le_iff.2 ⟨(norm_fst_le v).trans hv, by simpa using hρ0.le⟩)]
    refine Prod.ext rfl (funext fun w => ?_)
    simp only
    rw [hin _ ((norm_le_pi_norm v.2 w).trans ((norm_snd_le v).trans hv))]
  have hlip : LocallyLipschitz (mbedRhs F' κ A : MBed X n z → MBed X n z) := by
    have hl : mbedRhs F' κ A = fun v : MBed X n z => mbedCL L κ A v + ((F' (v.1, 0) - L (v.1, 0)).1, fun w => F' (v.2 w) - L (v.2 w)) := by
      funext v
      refine Prod.ext ?_ (funext fun w => ?_)
      · show (F' (v.1, 0)).1 = (L (v.1, 0)).1 + (F' (v.1, 0) - L (v.1, 0)).1
        rw [Prod.fst_sub]; abel
      · show F' (v.2 w) - ((0 : X), mflow κ A v.2 w) = mcolCL L κ A v.2 w + (F' (v.2 w) - L (v.2 w))
        rw [mcolCL_apply]; abel
    rw [hl]
    obtain ⟨K', hK'⟩ : ∃ K', LipschitzWith K' (fun p => F' p - L p) := ⟨_, hF'.sub L.lipschitz⟩
    refine LipschitzWith.locallyLipschitz (K := ‖mbedCL (z := z) L κ A‖₊ + K') ((mbedCL L κ A).lipschitz.add ?_)
    refine LipschitzWith.of_dist_le_mul fun u v => ?_
    have hb : ∀ p q : MPt X n, dist p q ≤ dist u v → dist (F' p - L p) (F' q - L q) ≤ K' * dist u v := fun p q hpq =>
      (hK'.dist_le_mul p q).trans (mul_le_mul_of_nonneg_left hpq K'.2)
    rw [Prod.dist_eq]
    refine max_le ?_ ((dist_pi_le_iff (by positivity)).2 fun w => ?_)
    · refine (le_trans (le_max_left _ _) (hb (u.1, 0) (v.1, 0) ?_) : dist (F' (u.1, 0) - L (u.1, 0)).1 (F' (v.1, 0) - L (v.1, 0)).1 ≤ _)
      rw [Prod.dist_eq, dist_self]
      exact max_le (le_max_left _ _) dist_nonneg
    · exact hb _ _ ((dist_le_pi_dist u.2 v.2 w).trans (le_max_right _ _))
  obtain ⟨y, hy0, hy⟩ := global_auto hlip hb
  refine ⟨y, hy0, fun T t ht => ?_, fun T x' h0 hx' => ?_⟩
  · have hbt := hb t ht.1 y hy0 (fun s hs => (hy s hs.1).mono Icc_subset_Ici_self)
    rw [hcong _ hbt]
    exact (hy t ht.1).mono Icc_subset_Ici_self
  · refine unique_auto hlip (fun t ht => ?_) (fun t ht => (hy t ht.1).mono Icc_subset_Ici_self) (by rw [h0, hy0])
    rw [← hcong _ (hb2 v (hv.trans (min_le_right _ _)) T x' h0 hx' t ht)]
    exact hx' t ht

end
end WTM
