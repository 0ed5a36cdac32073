import Verif.Lemmas.MultiBead
import Verif.Props.BinaryLimit

/-! Property C264: near exhaustion an ion exchange column with any number of ions of like mobility, whatever the selectivities and valences,
tends to it exponentially under a constant influent. -/
set_option autoImplicit false
namespace WTM
open BigOperators Set Topology Filter

section sums
variable {n r z : ℕ}

/-- Totals over the compounds. -/
noncomputable def msum (v : MBed (MBead n r) n z) : MBed (MBead 1 r) 1 z :=
  (fun _ k => ∑ i, v.1 i k, fun w => (fun _ k => ∑ i, (v.2 w).1 i k, fun _ => ∑ i, (v.2 w).2 i))

variable {α b f μ κ d : ℝ} {B : Fin (r + 1) → Fin (r + 1) → ℝ} {W : Fin (r + 1) → ℝ} {A : Fin (z + 1) → Fin (z + 1) → ℝ}
  {φ : (Fin n → ℝ) → Fin n → ℝ}

theorem beadL_sum (g : Fin n → Fin (r + 1) → ℝ) (k : Fin (r + 1)) : ∑ i, beadL 1 B W (g i) k = beadL 1 B W (fun l => ∑ i, g i l) k := by
  have e : ∀ j, ∑ i, ∑ l, B j l * (1 * g i l) = ∑ l, B j l * (1 * ∑ i, g i l) := by
    intro j
    rw [Finset.sum_comm]
    refine Finset.sum_congr rfl fun l _ => ?_
    rw [one_mul, Finset.mul_sum]
    exact Finset.sum_congr rfl fun i _ => by rw [one_mul]
  unfold beadL
  by_cases hk : k = Fin.last r
  · simp only [if_pos hk]
    rw [← Finset.sum_div, Finset.sum_neg_distrib, Finset.sum_comm]
    congr 2
    refine Finset.sum_congr rfl fun j _ => ?_
    rw [← Finset.mul_sum, e]
  · simp only [if_neg hk]
    exact e k

/-- An axial point of the totals, if compounds are alike but for the isotherm, and that keeps totals up to a factor. -/
theorem pt_sum (hφ : ∀ x, ∑ i, φ x i = d * ∑ i, x i) (p : MPt (MBead n r) n) :
    ((fun _ k => ∑ i, (ptRhs φ (fun _ => α) (fun _ => b) (fun _ => f) (fun _ => μ) B W p).1 i k,
      fun _ => ∑ i, (ptRhs φ (fun _ => α) (fun _ => b) (fun _ => f) (fun _ => μ) B W p).2 i) : MPt (MBead 1 r) 1) =
    ptCL (d • ContinuousLinearMap.id ℝ (Fin 1 → ℝ)) (fun _ => α) (fun _ => b) (fun _ => f) (fun _ => μ) B W
      (fun _ k => ∑ i, p.1 i k, fun _ => ∑ i, p.2 i) := by
  rw [ptCL_apply]
  have hs : ∑ i, f * (p.2 i - φ (fun j => p.1 j (Fin.last r)) i) = f * (∑ i, p.2 i - d * ∑ i, p.1 i (Fin.last r)) := by
    rw [← Finset.mul_sum, Finset.sum_sub_distrib, hφ]
  refine Prod.ext (funext fun _ => funext fun k => ?_) (funext fun _ => ?_)
  · simp only [ptRhs, ptLin, mpore, Pi.add_apply, Pi.smul_apply, smul_eq_mul, Finset.sum_add_distrib, beadL_sum, ← Finset.sum_mul, hs,
      ← Finset.mul_sum, hφ]
    rfl
  · simp only [ptRhs, ptLin, mpore, Finset.sum_neg_distrib, ← Finset.mul_sum, Finset.sum_sub_distrib, hφ]
    rfl

theorem msum_rhs (hφ : ∀ x, ∑ i, φ x i = d * ∑ i, x i) (v : MBed (MBead n r) n z) :
    msum (mbedRhs (ptRhs φ (fun _ => α) (fun _ => b) (fun _ => f) (fun _ => μ) B W) κ A v) =
    mbedCL (ptCL (d • ContinuousLinearMap.id ℝ (Fin 1 → ℝ)) (fun _ => α) (fun _ => b) (fun _ => f) (fun _ => μ) B W) κ A (msum v) := by
  refine Prod.ext ?_ (funext fun w => ?_)
  · have h := congrArg Prod.fst (pt_sum (α := α) (b := b) (f := f) (μ := μ) (B := B) (W := W) hφ (v.1, 0))
    simp only [Pi.zero_apply, Finset.sum_const_zero] at h
    exact h
  · have h := pt_sum (α := α) (b := b) (f := f) (μ := μ) (B := B) (W := W) hφ (v.2 w)
    show _ = mcolCL _ κ A (msum v).2 w
    rw [mcolCL_apply]
    have h' : ptCL (d • ContinuousLinearMap.id ℝ (Fin 1 → ℝ)) (fun _ => α) (fun _ => b) (fun _ => f) (fun _ => μ) B W ((msum v).2 w) = _ := h.symm
    rw [h']
    refine Prod.ext (funext fun _ => funext fun k => ?_) (funext fun _ => ?_)
    · simp only [msum, mbedRhs, Prod.fst_sub, Pi.sub_apply, Pi.zero_apply, sub_zero]
    · simp only [msum, mbedRhs, Prod.snd_sub, Pi.sub_apply, mflow, Finset.sum_sub_distrib, ← Finset.mul_sum]
      congr 2
      rw [Finset.sum_comm]
      exact Finset.sum_congr rfl fun w' _ => by rw [Finset.mul_sum]

theorem msum_deriv {x : ℝ → MBed (MBead n r) n z} {x' : MBed (MBead n r) n z} {S : Set ℝ} {t : ℝ} (h : HasDerivWithinAt x x' S t) :
    HasDerivWithinAt (fun t => msum (x t)) (msum x') S t := by
  have p1 : HasDerivWithinAt (fun s => (x s).1) x'.1 S t :=
    (ContinuousLinearMap.fst ℝ (MBead n r) (Fin z → MPt (MBead n r) n)).hasFDerivAt.comp_hasDerivWithinAt t h
  have p2 : HasDerivWithinAt (fun s => (x s).2) x'.2 S t :=
    (ContinuousLinearMap.snd ℝ (MBead n r) (Fin z → MPt (MBead n r) n)).hasFDerivAt.comp_hasDerivWithinAt t h
  have p3 : ∀ w, HasDerivWithinAt (fun s => ((x s).2 w).1) (x'.2 w).1 S t := fun w =>
    (ContinuousLinearMap.fst ℝ (MBead n r) (Fin n → ℝ)).hasFDerivAt.comp_hasDerivWithinAt t (hasDerivWithinAt_pi.1 p2 w)
  have p4 : ∀ w, HasDerivWithinAt (fun s => ((x s).2 w).2) (x'.2 w).2 S t := fun w =>
    (ContinuousLinearMap.snd ℝ (MBead n r) (Fin n → ℝ)).hasFDerivAt.comp_hasDerivWithinAt t (hasDerivWithinAt_pi.1 p2 w)
  refine HasDerivWithinAt.prodMk (hasDerivWithinAt_pi.2 fun _ => hasDerivWithinAt_pi.2 fun k => ?_) (hasDerivWithinAt_pi.2 fun w =>
    HasDerivWithinAt.prodMk (hasDerivWithinAt_pi.2 fun _ => hasDerivWithinAt_pi.2 fun k => ?_) (hasDerivWithinAt_pi.2 fun _ => ?_))
  · exact HasDerivWithinAt.fun_sum fun i _ => hasDerivWithinAt_pi.1 (hasDerivWithinAt_pi.1 p1 i) k
  · exact HasDerivWithinAt.fun_sum fun i _ => hasDerivWithinAt_pi.1 (hasDerivWithinAt_pi.1 (p3 w) i) k
  · exact HasDerivWithinAt.fun_sum fun i _ => hasDerivWithinAt_pi.1 (p4 w) i

/-- Totals that start at zero stay there. -/
theorem msum_zero (hφ : ∀ x, ∑ i, φ x i = d * ∑ i, x i) {x : ℝ → MBed (MBead n r) n z} {T : ℝ}
    (hx : ∀ t ∈ Icc 0 T, HasDerivWithinAt x (mbedRhs (ptRhs φ (fun _ => α) (fun _ => b) (fun _ => f) (fun _ => μ) B W) κ A (x t)) (Icc 0 T) t)
    (h0 : msum (x 0) = 0) : ∀ t ∈ Icc 0 T, msum (x t) = 0 := by
  refine unique_auto (y2 := fun _ => 0) (mbedCL (ptCL (d • ContinuousLinearMap.id ℝ (Fin 1 → ℝ)) (fun _ => α) (fun _ => b) (fun _ => f)
    (fun _ => μ) B W) κ A).lipschitz.locallyLipschitz (fun t ht => ?_) (fun t _ => ?_) h0
  · rw [← msum_rhs hφ]
    exact msum_deriv (hx t ht)
  · beta_reduce
    rw [map_zero]
    exact hasDerivWithinAt_const _ _ _

/-- The first compound is determined by totals and the others. -/
theorem msum_ext {v v' : MBed (MBead (n + 1) r) (n + 1) z} (hs : msum v = msum v') (h1 : ∀ (j : Fin n) k, v.1 j.succ k = v'.1 j.succ k)
    (h2 : ∀ w (j : Fin n) k, (v.2 w).1 j.succ k = (v'.2 w).1 j.succ k) (h3 : ∀ w (j : Fin n), (v.2 w).2 j.succ = (v'.2 w).2 j.succ) : v = v' := by
  have s1 : ∀ k, ∑ i, v.1 i k = ∑ i, v'.1 i k := fun k => congrFun (congrFun (congrArg Prod.fst hs) 0) k
  have s2 : ∀ w k, ∑ i, (v.2 w).1 i k = ∑ i, (v'.2 w).1 i k := fun w k =>
    congrFun (congrFun (congrArg Prod.fst (congrFun (congrArg Prod.snd hs) w)) 0) k
  have s3 : ∀ w, ∑ i, (v.2 w).2 i = ∑ i, (v'.2 w).2 i := fun w => congrFun (congrArg Prod.snd (congrFun (congrArg Prod.snd hs) w)) 0
  refine Prod.ext (funext fun i => funext fun k => ?_) (funext fun w => Prod.ext (funext fun i => funext fun k => ?_) (funext fun i => ?_))
  · refine Fin.cases ?_ (fun j => h1 j k) i
    have := s1 k
    rw [Fin.sum_univ_succ, Fin.sum_univ_succ] at this
    simp only [h1] at this
    linarith
  · refine Fin.cases ?_ (fun j => h2 w j k) i
    have := s2 w k
    rw [Fin.sum_univ_succ, Fin.sum_univ_succ] at this
    simp only [h2] at this
    linarith
  · refine Fin.cases ?_ (fun j => h3 w j) i
    have := s3 w
    rw [Fin.sum_univ_succ, Fin.sum_univ_succ] at this
    simp only [h3] at this
    linarith
end sums

section
variable {r p z : ℕ}

/-- Specification: a column of either model with a monovalent presaturant and other ions, monovalent or divalent, on the grids of the code. -/
structure Spec.IonColumn (m : ColModel) (P : ColParams r p z) (jac : Fin r → ℝ) (tH : ℝ) : Prop where
  grid : Spec.BeadGrid jac P.Br P.Wr
  axial : Spec.AxialGrid z P.Az
  bed : 0 < P.EBED ∧ P.EBED < 1
  flow : 0 < P.v ∧ 0 < P.L
  size : 0 < P.rb
  time : 0 < tH
  pores : m = .psdm → 0 ≤ P.EPOR ∧ P.EPOR < 1
  select : P.K 0 = 1 ∧ ∀ i, 0 < P.K i
  valence : P.val 0 = 1 ∧ ∀ i, P.val i = 1 ∨ P.val i = 2

/-- Specification: such a column with ions, besides the presaturant, of one diffusivity `D`, one pore diffusivity `E` and one film
coefficient `k`. -/
structure Spec.AlikeColumn (m : ColModel) (P : ColParams r p z) (jac : Fin r → ℝ) (tH D E k : ℝ) : Prop extends Spec.IonColumn m P jac tH where
  rates : 0 < D ∧ 0 < k
  alike : ∀ i, i ≠ 0 → P.Ds i = D ∧ P.kL i = k
  pore : m = .psdm → D ≤ E ∧ ∀ i, i ≠ 0 → P.Dp i = E

/-- Specification: `q` are the loadings in equilibrium with the influent, the resin holding `Q` in all. -/
structure Spec.SpentLoadings (m : ColModel) (P : ColParams r p z) (cin : Fin (p + 1) → ℝ) (Q : ℝ) (q : Fin (p + 1) → ℝ) : Prop where
  pos : ∀ i, 0 < q i
  total : ∑ i, q i = Q
  law : Spec.Selectivity P.K P.val (fun i => m.load P (q i)) cin

variable {m : ColModel} {P : ColParams r p z} {jac : Fin r → ℝ} {tH D E k : ℝ} {cin q : Fin (p + 1) → ℝ} {Q : ℝ}

/-- Divisor of the loadings. -/
noncomputable def colDiv (m : ColModel) (P : ColParams r p z) : ℝ :=
  match m with
  | .hsdm => 1
  | .psdm => 1 - P.EPOR

theorem load_colDiv (y : ℝ) : m.load P y = y / colDiv m P := by
  cases m
  · exact (div_one y).symm
  · rfl

theorem colDiv_pos (h : Spec.IonColumn m P jac tH) : 0 < colDiv m P := by
  have hp := h.pores
  cases m
  · exact one_pos
  · exact sub_pos.2 (hp rfl).2

theorem ion_ok (h : Spec.IonColumn m P jac tH) {y : Fin (p + 1) → ℝ} (hy : ∀ i, 0 < y i) :
    DvOk P.K P.val (fun i => m.load P (y i)) := by
  have hl := colDiv_pos h
  simp only [load_colDiv]
  exact ⟨h.select.2, h.select.1, fun i => (div_pos (hy i) hl).le, div_pos (hy 0) hl, h.valence.1⟩

/-- Law and totals of the equilibrium at positive loadings. -/
theorem ion_law (h : Spec.IonColumn m P jac tH) {y : Fin (p + 1) → ℝ} (hy : ∀ i, 0 < y i) {CT : ℝ} (hC : 0 < CT) :
    Spec.Selectivity P.K P.val (fun i => m.load P (y i)) (ceq P.K P.val (fun i => m.load P (y i)) CT) ∧
    ∑ i, ceq P.K P.val (fun i => m.load P (y i)) CT i = CT ∧ ∀ i, 0 < ceq P.K P.val (fun i => m.load P (y i)) CT i := by
  have hok := ion_ok h hy
  have hl := colDiv_pos h
  have hload : ∀ i, 0 < m.load P (y i) := fun i => by rw [load_colDiv]; exact div_pos (hy i) hl
  set c := ceq P.K P.val (fun i => m.load P (y i)) CT with hc
  have key : Spec.Selectivity P.K P.val (fun i => m.load P (y i)) c ∧ ∑ i, c i = CT ∧ 0 < c 0 := by
    by_cases hd : ∃ i, P.val i = 2
    · have h3 := c23_divalent hok h.valence.2 hd hC
      exact ⟨(c24_unique hok h.valence.2 hd hC).1, h3.1, h3.2.2.2.1⟩
    · have hv : ∀ i, P.val i = 1 := fun i => (h.valence.2 i).resolve_right fun e => hd ⟨i, e⟩
      have h3 := c22_monovalent hok.Kpos hok.qnonneg ⟨0, hok.qref.ne'⟩ hC.le (fun i e => hd ⟨i, e⟩)
      refine ⟨fun i => ?_, h3.1, lt_of_le_of_ne (h3.2.2 0) fun e => ?_⟩
      · have := h3.2.1 i 0
        rw [h.select.1, div_one] at this
        rw [hv i, pow_one, pow_one]
        linarith
      · have hz : ∀ i, c i = 0 := by
          intro i
          have := h3.2.1 i 0
          rw [← hc, ← e, mul_zero, h.select.1, div_one] at this
          rcases mul_eq_zero.1 this.symm with h4 | h4
          · exact absurd h4 (h.select.2 i).ne'
          · exact (mul_eq_zero.1 h4).resolve_left (hload 0).ne'
        have := h3.1
        unfold Spec.Neutral at this
        rw [← hc] at this
        simp only [hz, Finset.sum_const_zero] at this
        exact hC.ne this
  refine ⟨key.1, key.2.1, fun i => ?_⟩
  have e := key.1 i
  have h4 : 0 < m.load P (y i) * c 0 ^ P.val i := mul_pos (hload i) (pow_pos key.2.2 _)
  rw [← e] at h4
  by_contra hn
  have h5 : P.K i * c i ≤ 0 := mul_nonpos_of_nonneg_of_nonpos (h.select.2 i).le (not_lt.1 hn)
  exact absurd (mul_nonpos_of_nonpos_of_nonneg h5 (pow_pos (hload 0) (P.val i)).le) (not_le.2 h4)

/-- At the loadings in equilibrium with the influent it is the influent. -/
theorem ion_spent (h : Spec.IonColumn m P jac tH) (hc : ∀ i, 0 < cin i) (hq : Spec.SpentLoadings m P cin Q q) :
    ceq P.K P.val (fun i => m.load P (q i)) (∑ i, cin i) = cin := by
  have hC : 0 < ∑ i, cin i := Finset.sum_pos (fun i _ => hc i) Finset.univ_nonempty
  have hok := ion_ok h hq.pos
  have hl := colDiv_pos h
  by_cases hd : ∃ i, P.val i = 2
  · exact ((c24_unique hok h.valence.2 hd hC).2 cin (hc 0).le hq.law rfl).symm
  · have hv : ∀ i, P.val i = 1 := fun i => (h.valence.2 i).resolve_right fun e => hd ⟨i, e⟩
    obtain ⟨h1, h2, h3⟩ := ion_law h hq.pos hC
    set c := ceq P.K P.val (fun i => m.load P (q i)) (∑ i, cin i) with hcc
    have hload : 0 < m.load P (q 0) := by rw [load_colDiv]; exact div_pos (hq.pos 0) hl
    -- both are proportional
    have hp : ∀ i, c i * cin 0 = cin i * c 0 := by
      intro i
      have e1 := h1 i
      have e2 := hq.law i
      rw [hv i, pow_one, pow_one] at e1 e2
      have hK := h.select.2 i
      have : P.K i * m.load P (q 0) * (c i * cin 0 - cin i * c 0) = 0 := by linear_combination cin 0 * e1 - c 0 * e2
      have := (mul_eq_zero.1 this).resolve_left (mul_pos hK hload).ne'
      linarith
    have h0 : c 0 = cin 0 := by
      have e : (∑ i, c i) * cin 0 = (∑ i, cin i) * c 0 := by
        rw [Finset.sum_mul, Finset.sum_mul]
        exact Finset.sum_congr rfl fun i _ => hp i
      rw [h2] at e
      exact (mul_left_cancel₀ hC.ne' e).symm
    funext i
    have := hp i
    rw [h0] at this
    exact mul_right_cancel₀ (hc 0).ne' this

/-- Pore concentration of the excesses `x` over the influent, the presaturant making up for the others; totals that are not zero (they are not
met) are carried along. -/
noncomputable def ionIso (m : ColModel) (P : ColParams r p z) (cin q x : Fin (p + 1) → ℝ) (i : Fin (p + 1)) : ℝ :=
  implicitRef (fun j => ceq P.K P.val (fun l => m.load P (q l + x l)) (∑ l, cin l) j - cin j) i + (∑ j, x j) * (P.val i * q i)

theorem ionIso_sum (x : Fin (p + 1) → ℝ) : ∑ i, ionIso m P cin q x i = (∑ i, P.val i * q i) * ∑ i, x i := by
  unfold ionIso
  rw [Finset.sum_add_distrib, implicitRef_sum, zero_add, ← Finset.mul_sum, mul_comm]

theorem ionIso_near (h : Spec.IonColumn m P jac tH) (hc : ∀ i, 0 < cin i) (hq : Spec.SpentLoadings m P cin Q q) :
    ∀ᶠ x in 𝓝 (0 : Fin (p + 1) → ℝ), (∀ l, 0 < q l + x l) ∧ ionIso m P cin q x =
      fun i => ceq P.K P.val (fun l => m.load P (q l + x l)) (∑ l, cin l) i - cin i + (∑ j, x j) * (P.val i * q i) := by
  have hC : 0 < ∑ i, cin i := Finset.sum_pos (fun i _ => hc i) Finset.univ_nonempty
  have h1 : ∀ᶠ x in 𝓝 (0 : Fin (p + 1) → ℝ), ∀ l, 0 < q l + x l := by
    refine eventually_all.2 fun l => ?_
    have hcont : Continuous fun x : Fin (p + 1) → ℝ => q l + x l := continuous_const.add (continuous_apply l)
    exact hcont.continuousAt.eventually_const_lt (by simpa using hq.pos l)
  filter_upwards [h1] with x hx
  refine ⟨hx, funext fun i => ?_⟩
  unfold ionIso implicitRef
  split
  · rename_i hi
    subst hi
    have := (ion_law h hx hC).2.1
    rw [Fin.sum_univ_succ] at this
    congr 1
    rw [Finset.sum_sub_distrib]
    have e : ∑ j, cin j = cin 0 + ∑ j : Fin p, cin j.succ := Fin.sum_univ_succ _
    linarith
  · rfl

theorem ionIso_zero (h : Spec.IonColumn m P jac tH) (hc : ∀ i, 0 < cin i) (hq : Spec.SpentLoadings m P cin Q q) :
    ionIso m P cin q 0 = 0 := by
  rw [(ionIso_near h hc hq).self_of_nhds.2]
  funext i
  simp only [Pi.zero_apply, add_zero, Finset.sum_const_zero, zero_mul, ion_spent h hc hq, sub_self]

theorem ion_ceq_smooth (h : Spec.IonColumn m P jac tH) (hc : ∀ i, 0 < cin i) (hq : Spec.SpentLoadings m P cin Q q) (i : Fin (p + 1)) :
    ContDiffAt ℝ 1 (fun x : Fin (p + 1) → ℝ => ceq P.K P.val (fun l => m.load P (q l + x l)) (∑ l, cin l) i) 0 := by
  have hC : 0 < ∑ i, cin i := Finset.sum_pos (fun i _ => hc i) Finset.univ_nonempty
  refine ceq_smooth (Q := fun (x : Fin (p + 1) → ℝ) l => m.load P (q l + x l)) (C := fun _ => ∑ l, cin l) (fun l => ?_) contDiffAt_const
    (eqRegular_of (ion_ok h (y := fun l => q l + (0 : Fin (p + 1) → ℝ) l) fun l => by simpa using hq.pos l) hC.le) i
  simp only [load_colDiv]
  exact (contDiffAt_const.add (contDiff_apply ℝ ℝ l).contDiffAt).div_const _

theorem ionIso_smooth (h : Spec.IonColumn m P jac tH) (hc : ∀ i, 0 < cin i) (hq : Spec.SpentLoadings m P cin Q q) :
    ContDiffAt ℝ 1 (ionIso m P cin q) 0 := by
  have hs : ContDiffAt ℝ 1 (fun x : Fin (p + 1) → ℝ => ∑ j, x j) 0 :=
    ContDiffAt.sum fun j _ => (contDiff_apply ℝ ℝ j).contDiffAt
  refine (contDiffAt_pi.2 fun i => (((ion_ceq_smooth h hc hq i).sub contDiffAt_const).add (hs.mul contDiffAt_const)) :
    ContDiffAt ℝ 1 (fun (x : Fin (p + 1) → ℝ) i => ceq P.K P.val (fun l => m.load P (q l + x l)) (∑ l, cin l) i - cin i +
      (∑ j, x j) * (P.val i * q i)) 0).congr_of_eventuallyEq ?_
  exact (ionIso_near h hc hq).mono fun x hx => hx.2

/-- Its slope. -/
theorem ionIso_slope (h : Spec.IonColumn m P jac tH) (hc : ∀ i, 0 < cin i) (hq : Spec.SpentLoadings m P cin Q q)
    (x : Fin (p + 1) → ℝ) (i : Fin (p + 1)) : fderiv ℝ (ionIso m P cin q) 0 x i =
      cin i * (x i / q i - P.val i * ((∑ j, cin j / q j * x j) / ∑ j, P.val j * cin j)) + (∑ j, x j) * (P.val i * q i) := by
  have hC : 0 < ∑ i, cin i := Finset.sum_pos (fun i _ => hc i) Finset.univ_nonempty
  have hl := colDiv_pos h
  have hvp : ∀ i, (0 : ℝ) < P.val i := fun i => by rcases h.valence.2 i with e | e <;> rw [e] <;> norm_num
  have hV : 0 < ∑ j, P.val j * cin j := Finset.sum_pos (fun j _ => mul_pos (hvp j) (hc j)) Finset.univ_nonempty
  have hd : HasFDerivAt (ionIso m P cin q) (fderiv ℝ (ionIso m P cin q) 0) ((0 : ℝ) • x) := by
    rw [zero_smul]
    exact ((ionIso_smooth h hc hq).differentiableAt (by norm_num)).hasFDerivAt
  have hline : HasDerivAt (fun t : ℝ => t • x) x 0 := by simpa using (hasDerivAt_id (0 : ℝ)).smul_const x
  have h1 := hasDerivAt_pi.1 (hd.comp_hasDerivAt (0 : ℝ) hline)
  -- the equilibrium along the line
  set g : Fin (p + 1) → ℝ → ℝ := fun i t => ceq P.K P.val (fun l => m.load P (q l + t * x l)) (∑ l, cin l) i with hg
  have htend : Tendsto (fun t : ℝ => t • x) (𝓝 0) (𝓝 0) := by
    have := hline.continuousAt.tendsto
    rwa [zero_smul] at this
  have hev := htend.eventually (ionIso_near h hc hq)
  have hsum : HasDerivAt (fun t : ℝ => ∑ j, t * x j) (∑ j, x j) 0 := HasDerivAt.fun_sum fun j _ => by
    simpa using (hasDerivAt_id (0 : ℝ)).mul_const (x j)
  set g' : Fin (p + 1) → ℝ := fun i => fderiv ℝ (ionIso m P cin q) 0 x i - (∑ j, x j) * (P.val i * q i) with hg'
  have hgd : ∀ i, HasDerivAt (g i) (g' i) 0 := by
    intro i
    have h2 := ((h1 i).sub (hsum.mul_const (P.val i * q i))).add_const (cin i)
    refine h2.congr_of_eventuallyEq ?_
    filter_upwards [hev] with t ht
    have := congrFun ht.2 i
    simp only [Pi.add_apply, Pi.sub_apply, Function.comp, Pi.smul_apply, smul_eq_mul] at this ⊢
    rw [this, hg]
    ring
  have hg0 : ∀ i, g i 0 = cin i := by
    intro i
    have := congrFun (ion_spent h hc hq) i
    simpa [hg] using this
  have hloadd : ∀ l, HasDerivAt (fun t : ℝ => q l + t * x l) (x l) 0 := fun l => by
    simpa using ((hasDerivAt_id (0 : ℝ)).mul_const (x l)).const_add (q l)
  -- derivative of the law
  have hlaw : ∀ i, g' i = cin i * (x i / q i + P.val i * (g' 0 / cin 0 - x 0 / q 0)) := by
    intro i
    have d1 : HasDerivAt (fun t => Real.log (g i t) + P.val i * Real.log (q 0 + t * x 0)) (g' i / cin i + P.val i * (x 0 / q 0)) 0 := by
      have a1 := (hgd i).log (by rw [hg0]; exact (hc i).ne')
      have a2 := (hloadd 0).log (by simpa using (hq.pos 0).ne')
      rw [hg0] at a1
      have a3 := a1.fun_add (a2.const_mul (P.val i : ℝ))
      simpa using a3
    have d2 : HasDerivAt (fun t => Real.log (q i + t * x i) + P.val i * Real.log (g 0 t) + (P.val i * Real.log (colDiv m P) - Real.log (colDiv m P) - Real.log (P.K i)))
        (x i / q i + P.val i * (g' 0 / cin 0)) 0 := by
      have a1 := (hgd 0).log (by rw [hg0]; exact (hc 0).ne')
      have a2 := (hloadd i).log (by simpa using (hq.pos i).ne')
      rw [hg0] at a1
      have a3 := (a2.fun_add (a1.const_mul (P.val i : ℝ))).add_const (P.val i * Real.log (colDiv m P) - Real.log (colDiv m P) - Real.log (P.K i))
      simpa using a3
    have d3 := d1.unique (d2.congr_of_eventuallyEq (by
      filter_upwards [hev] with t ht
      have hpos : ∀ l, 0 < q l + t * x l := fun l => by simpa using ht.1 l
      obtain ⟨l1, -, l3⟩ := ion_law h hpos hC
      have e := l1 i
      have hpl : ∀ l, 0 < m.load P (q l + t * x l) := fun l => by rw [load_colDiv]; exact div_pos (hpos l) hl
      have e2 := congrArg Real.log e
      rw [Real.log_mul (mul_pos (h.select.2 i) (l3 i)).ne' (pow_pos (hpl 0) _).ne', Real.log_mul (h.select.2 i).ne' (l3 i).ne',
        Real.log_mul (hpl i).ne' (pow_pos (l3 0) _).ne', Real.log_pow, Real.log_pow, load_colDiv, load_colDiv,
        Real.log_div (hpos 0).ne' hl.ne', Real.log_div (hpos i).ne' hl.ne'] at e2
      simp only [hg]
      linarith))
    have hci := (hc i).ne'
    have : g' i / cin i = x i / q i + P.val i * (g' 0 / cin 0 - x 0 / q 0) := by linarith
    rw [← this]
    field_simp
  have htot : ∑ i, g' i = 0 := by
    have d1 : HasDerivAt (fun t => ∑ i, g i t) (∑ i, g' i) 0 := HasDerivAt.fun_sum fun i _ => hgd i
    refine d1.unique ((hasDerivAt_const (0 : ℝ) (∑ i, cin i)).congr_of_eventuallyEq ?_)
    filter_upwards [hev] with t ht
    exact (ion_law h (fun l => by simpa using ht.1 l) hC).2.1
  set lam := g' 0 / cin 0 - x 0 / q 0 with hlam
  have hlv : lam = -((∑ j, cin j / q j * x j) / ∑ j, P.val j * cin j) := by
    have e : ∑ i, g' i = ∑ j, cin j / q j * x j + lam * ∑ j, P.val j * cin j := by
      rw [Finset.mul_sum, ← Finset.sum_add_distrib]
      refine Finset.sum_congr rfl fun i _ => ?_
      rw [hlaw i]
      ring
    rw [htot] at e
    rw [← neg_div, eq_div_iff hV.ne']
    linarith
  have := hlaw i
  rw [hlv] at this
  have e2 : fderiv ℝ (ionIso m P cin q) 0 x i = g' i + (∑ j, x j) * (P.val i * q i) := by rw [hg']; ring
  rw [e2, this]
  ring

/-- The slope in the weights of the ions. -/
theorem ionIso_pair (h : Spec.IonColumn m P jac tH) (hc : ∀ i, 0 < cin i) (hq : Spec.SpentLoadings m P cin Q q)
    (x y : Fin (p + 1) → ℝ) : ∑ i, 1 / (P.val i * q i) * (fderiv ℝ (ionIso m P cin q) 0 x i * y i) =
      ∑ i, cin i / (P.val i * q i ^ 2) * (x i * y i) - (∑ j, cin j / q j * x j) * (∑ j, cin j / q j * y j) / (∑ j, P.val j * cin j) +
        (∑ j, x j) * ∑ j, y j := by
  have hvp : ∀ i, (0 : ℝ) < P.val i := fun i => by rcases h.valence.2 i with e | e <;> rw [e] <;> norm_num
  have e : ∀ i, 1 / (P.val i * q i) * (fderiv ℝ (ionIso m P cin q) 0 x i * y i) = cin i / (P.val i * q i ^ 2) * (x i * y i) -
      (∑ j, cin j / q j * x j) / (∑ j, P.val j * cin j) * (cin i / q i * y i) + (∑ j, x j) * y i := by
    intro i
    rw [ionIso_slope h hc hq]
    have h1 := (hvp i).ne'
    have h2 := (hq.pos i).ne'
    generalize (∑ j, cin j / q j * x j) / (∑ j, P.val j * cin j) = s
    generalize ∑ j, x j = S
    field_simp
  simp only [e, Finset.sum_add_distrib, Finset.sum_sub_distrib, ← Finset.mul_sum]
  ring

theorem ionIso_pos (h : Spec.IonColumn m P jac tH) (hc : ∀ i, 0 < cin i) (hq : Spec.SpentLoadings m P cin Q q)
    {x : Fin (p + 1) → ℝ} (hx : x ≠ 0) : 0 < ∑ i, 1 / (P.val i * q i) * (fderiv ℝ (ionIso m P cin q) 0 x i * x i) := by
  have hvp : ∀ i, (0 : ℝ) < P.val i := fun i => by rcases h.valence.2 i with e | e <;> rw [e] <;> norm_num
  have hV : 0 < ∑ j, P.val j * cin j := Finset.sum_pos (fun j _ => mul_pos (hvp j) (hc j)) Finset.univ_nonempty
  rw [ionIso_pair h hc hq]
  set V := ∑ j, P.val j * cin j with hVd
  set S := ∑ j, cin j / q j * x j with hS
  set s := S / V with hs
  have e : ∑ i, cin i / (P.val i * q i ^ 2) * (x i * x i) - S * S / V = ∑ i, cin i / (P.val i * q i ^ 2) * (x i - s * (P.val i * q i)) ^ 2 := by
    have e1 : ∀ i, cin i / (P.val i * q i ^ 2) * (x i - s * (P.val i * q i)) ^ 2 =
        cin i / (P.val i * q i ^ 2) * (x i * x i) - 2 * s * (cin i / q i * x i) + s ^ 2 * (P.val i * cin i) := by
      intro i
      have h1 := (hvp i).ne'
      have h2 := (hq.pos i).ne'
      field_simp
      ring
    simp only [e1, Finset.sum_add_distrib, Finset.sum_sub_distrib, ← Finset.mul_sum]
    rw [← hS, ← hVd, hs]
    field_simp
    ring
  rw [e]
  have hw : ∀ i, 0 < cin i / (P.val i * q i ^ 2) := fun i => div_pos (hc i) (mul_pos (hvp i) (pow_pos (hq.pos i) 2))
  have n1 : ∀ i ∈ Finset.univ, 0 ≤ cin i / (P.val i * q i ^ 2) * (x i - s * (P.val i * q i)) ^ 2 :=
    fun i _ => mul_nonneg (hw i).le (sq_nonneg _)
  have s1 := Finset.sum_nonneg n1
  have s2 := mul_self_nonneg (∑ j, x j)
  refine lt_of_le_of_ne (add_nonneg s1 s2) fun h0 => hx ?_
  have z1 := (Finset.sum_eq_zero_iff_of_nonneg n1).1 (by linarith)
  have z2 : ∑ j, x j = 0 := mul_self_eq_zero.1 (by linarith)
  have z3 : ∀ i, x i = s * (P.val i * q i) := fun i => by
    have := (mul_eq_zero.1 (z1 i (Finset.mem_univ i))).resolve_left (hw i).ne'
    have := pow_eq_zero_iff two_ne_zero |>.1 this
    linarith
  have z4 : s = 0 := by
    simp only [z3, ← Finset.mul_sum] at z2
    exact (mul_eq_zero.1 z2).resolve_right (Finset.sum_pos (fun i _ => mul_pos (hvp i) (hq.pos i)) Finset.univ_nonempty).ne'
  funext i
  rw [z3, z4, zero_mul]
  rfl

theorem ion_comp (h : Spec.IonColumn m P jac tH) (hc : ∀ i, 0 < cin i) (hq : Spec.SpentLoadings m P cin Q q) {α b : ℝ} (hα : 0 ≤ α)
    (hb : 0 < b) : CompSlope (fderiv ℝ (ionIso m P cin q) 0) (fun i => 1 / (P.val i * q i)) (fun _ => α) (fun _ => b) := by
  have hvp : ∀ i, (0 : ℝ) < P.val i := fun i => by rcases h.valence.2 i with e | e <;> rw [e] <;> norm_num
  have hm : ∀ i, 0 < 1 / (P.val i * q i) := fun i => one_div_pos.2 (mul_pos (hvp i) (hq.pos i))
  refine ⟨hm, fun x y => ?_, fun x hx => ionIso_pos h hc hq hx, fun x hx => ?_⟩
  · rw [ionIso_pair h hc hq, ionIso_pair h hc hq]
    have : ∀ i, cin i / (P.val i * q i ^ 2) * (x i * y i) = cin i / (P.val i * q i ^ 2) * (y i * x i) := fun i => by ring
    simp only [this]
    ring
  · have e : ∑ i, 1 / (P.val i * q i) * (fderiv ℝ (ionIso m P cin q) 0 x i * (α * fderiv ℝ (ionIso m P cin q) 0 x i + b * x i)) =
        α * ∑ i, 1 / (P.val i * q i) * fderiv ℝ (ionIso m P cin q) 0 x i ^ 2 +
          b * ∑ i, 1 / (P.val i * q i) * (fderiv ℝ (ionIso m P cin q) 0 x i * x i) := by
      rw [Finset.mul_sum, Finset.mul_sum, ← Finset.sum_add_distrib]
      exact Finset.sum_congr rfl fun i _ => by ring
    rw [e]
    exact add_pos_of_nonneg_of_pos (mul_nonneg hα (Finset.sum_nonneg fun i _ => mul_nonneg (hm i).le (sq_nonneg _)))
      (mul_pos hb (ionIso_pos h hc hq hx))

/-! ### Rates -/

/-- Excesses over the exhausted column. -/
noncomputable def ionExc (cin q : Fin (p + 1) → ℝ) (u : ColState r p z) : MBed (MBead (p + 1) r) (p + 1) z :=
  (fun i k => u k.succ i 0 - q i, fun w => (fun i k => u k.succ i w.succ - q i, fun i => u 0 i w.succ - cin i))

theorem ionExc_sum (hq : ∑ i, q i = Q) {u : ColState r p z} (hu : Spec.Totals (∑ i, cin i) Q u) : msum (ionExc cin q u) = 0 := by
  refine Prod.ext (funext fun _ => funext fun k => ?_) (funext fun w => Prod.ext (funext fun _ => funext fun k => ?_) (funext fun _ => ?_))
  · show ∑ i, (u k.succ i 0 - q i) = 0
    rw [Finset.sum_sub_distrib, hu.beads, hq, sub_self]
  · show ∑ i, (u k.succ i w.succ - q i) = 0
    rw [Finset.sum_sub_distrib, hu.beads, hq, sub_self]
  · show ∑ i, (u 0 i w.succ - cin i) = 0
    rw [Finset.sum_sub_distrib, hu.water _ (Fin.succ_ne_zero w), sub_self]

/-- Coefficient of diffusion in the pores. -/
noncomputable def ionAlpha (m : ColModel) (P : ColParams r p z) (tH D E : ℝ) : ℝ :=
  match m with
  | .hsdm => 0
  | .psdm => tH * (P.EPOR * (E - D)) / P.rb ^ 2

theorem ionAlpha_nonneg (h : Spec.AlikeColumn m P jac tH D E k) : 0 ≤ ionAlpha m P tH D E := by
  have ht := h.time
  have hp := h.pore
  cases m
  · exact le_rfl
  · have := sub_nonneg.2 (hp rfl).1
    have := (h.pores rfl).1
    unfold ionAlpha
    positivity

/-- Rates of one axial point. -/
noncomputable def ionPt (m : ColModel) (P : ColParams r p z) (tH D E k : ℝ) (cin q : Fin (p + 1) → ℝ) :
    MPt (MBead (p + 1) r) (p + 1) → MPt (MBead (p + 1) r) (p + 1) :=
  ptRhs (ionIso m P cin q) (fun _ => ionAlpha m P tH D E) (fun _ => D * tH / P.rb ^ 2) (fun _ => tH * k / P.rb)
    (fun _ => 3 * (1 - P.EBED) / P.EBED) P.Br P.Wr

/-- Rates of a state in the same arrangement. -/
noncomputable def ionRates (m : ColModel) (P : ColParams r p z) (tH : ℝ) (cin : Fin (p + 1) → ℝ) (u : ColState r p z) :
    MBed (MBead (p + 1) r) (p + 1) z :=
  (fun i k => m.rhs P tH cin u k.succ i 0, fun w => (fun i k => m.rhs P tH cin u k.succ i w.succ, fun i => m.rhs P tH cin u 0 i w.succ))

/-- The rates are those of a column with this isotherm. -/
theorem ion_rates (h : Spec.AlikeColumn m P jac tH D E k) (hq : ∑ i, q i = Q) {u : ColState r p z}
    (hu : Spec.Totals (∑ i, cin i) Q u) :
    ionRates m P tH cin u = mbedRhs (ionPt m P tH D E k cin q) (P.v * tH / (P.L * P.EBED)) P.Az (ionExc cin q u) := by
  have hE := h.bed.1.ne'
  have hL := h.flow.2.ne'
  have hb := h.size.ne'
  have hsum : ∀ (k : Fin (r + 1)) w, ∑ j, (u k.succ j w - q j) = 0 := fun k w => by
    rw [Finset.sum_sub_distrib, hu.beads, hq, sub_self]
  have hiso : ∀ (j : Fin p) (k : Fin (r + 1)) w, ionIso m P cin q (fun l => u k.succ l w - q l) j.succ =
      ceq P.K P.val (fun l => m.load P (u k.succ l w)) (∑ l, cin l) j.succ - cin j.succ := by
    intro j k w
    unfold ionIso implicitRef
    rw [hsum, zero_mul, add_zero, if_neg (Fin.succ_ne_zero j)]
    simp only [add_sub_cancel]
  have hflux : ∀ (j : Fin p) w, m.flux P (setInlet u cin) j.succ w = -(k * (setInlet u cin 0 j.succ w - cin j.succ -
      ionIso m P cin q (fun l => u (Fin.last r).succ l w - q l) j.succ)) := by
    intro j w
    unfold ColModel.flux fluxJ implicitRef
    rw [if_neg (Fin.succ_ne_zero j), plain_total hu, hiso]
    beta_reduce
    rw [(h.alike _ (Fin.succ_ne_zero j)).2, ← Fin.succ_last]
    simp only [setInlet_bead]
    ring
  have hbead : ∀ (k : Fin (r + 1)) (j : Fin p) w, m.bead P tH (setInlet u cin) k j.succ w =
      ∑ l, P.Br k l * (1 * (ionAlpha m P tH D E * ionIso m P cin q (fun i => u l.succ i w - q i) j.succ +
        D * tH / P.rb ^ 2 * (u l.succ j.succ w - q j.succ))) := by
    intro k j w
    have e : ∀ l, P.Br k l * (1 * (ionAlpha m P tH D E * ionIso m P cin q (fun i => u l.succ i w - q i) j.succ +
        D * tH / P.rb ^ 2 * (u l.succ j.succ w - q j.succ))) =
        ionAlpha m P tH D E * (P.Br k l * ceq P.K P.val (fun i => m.load P (u l.succ i w)) (∑ i, cin i) j.succ) +
          D * tH / P.rb ^ 2 * (P.Br k l * u l.succ j.succ w) -
          (ionAlpha m P tH D E * cin j.succ + D * tH / P.rb ^ 2 * q j.succ) * P.Br k l := by
      intro l
      rw [hiso]
      ring
    simp only [e, Finset.sum_sub_distrib, Finset.sum_add_distrib, ← Finset.mul_sum]
    rw [h.grid.rows, mul_zero, sub_zero]
    have hD := (h.alike _ (Fin.succ_ne_zero j)).1
    have hp := h.pore
    cases m with
    | hsdm =>
      show hsdmBead P tH _ k j.succ w = _
      unfold hsdmBead implicitRef ionAlpha
      rw [if_neg (Fin.succ_ne_zero j)]
      beta_reduce
      rw [hD]
      simp only [setInlet_bead, zero_mul, zero_add]
    | psdm =>
      show psdmBead P tH _ k j.succ w = _
      have hpc : ∀ l, poreConc P (setInlet u cin) l j.succ w =
          ceq P.K P.val (fun i => ColModel.psdm.load P (u l.succ i w)) (∑ i, cin i) j.succ := by
        intro l
        unfold poreConc
        rw [plain_total hu]
        simp only [setInlet_bead]
        rfl
      unfold psdmBead implicitRef ionAlpha
      rw [if_neg (Fin.succ_ne_zero j)]
      beta_reduce
      rw [hD, (hp rfl).2 _ (Fin.succ_ne_zero j)]
      simp only [setInlet_bead, hpc]
      ring
  refine msum_ext ?_ (fun j k' => ?_) (fun w j k' => ?_) (fun w j => ?_)
  · unfold ionPt
    rw [msum_rhs (d := ∑ i, P.val i * q i) ionIso_sum, ionExc_sum hq hu, map_zero]
    have hs := fun a w => plain_sums (m := m) (P := P) (tH := tH) (axial_moves h.axial) hu a w
    exact Prod.ext (funext fun _ => funext fun k => hs k.succ 0) (funext fun w => Prod.ext (funext fun _ => funext fun k => hs k.succ w.succ)
      (funext fun _ => hs 0 w.succ))
  · show m.rhs P tH cin u k'.succ j.succ 0 = _
    rw [rhs_eq, assemble_bead]
    simp only [mbedRhs, ionPt, ptRhs, ptLin, mpore, ionExc, beadL, surf, Pi.add_apply, Pi.smul_apply, smul_eq_mul, hflux, hbead, Pi.zero_apply]
    have e0 : setInlet u cin 0 j.succ 0 = cin j.succ := by simp [setInlet]
    by_cases hk : k' = Fin.last r
    · simp only [hk, if_true]
      rw [e0]
      ring
    · simp only [if_neg hk, mul_zero, add_zero]
  · show m.rhs P tH cin u k'.succ j.succ w.succ = _
    rw [rhs_eq, assemble_bead]
    simp only [mbedRhs, ionPt, ptRhs, ptLin, mpore, ionExc, beadL, surf, Pi.add_apply, Pi.smul_apply, smul_eq_mul, hflux, hbead, Pi.zero_apply,
      Prod.fst_sub, Pi.sub_apply, sub_zero]
    have e0 : setInlet u cin 0 j.succ w.succ = u 0 j.succ w.succ := by simp [setInlet]
    by_cases hk : k' = Fin.last r
    · simp only [hk, if_true]
      rw [e0]
      ring
    · simp only [if_neg hk, mul_zero, add_zero]
  · show m.rhs P tH cin u 0 j.succ w.succ = _
    have e0 : ∀ w : Fin z, setInlet u cin 0 j.succ w.succ = u 0 j.succ w.succ := fun w => by simp [setInlet]
    have h0 := (axial_moves h.axial (fun _ => 1)).2 (fun _ => rfl) w.succ (Fin.succ_ne_zero w)
    simp only [mul_one] at h0
    rw [Fin.sum_univ_succ] at h0
    have hadv : ∑ w', P.Az w.succ w' * setInlet u cin 0 j.succ w' = ∑ w' : Fin z, P.Az w.succ w'.succ * (u 0 j.succ w'.succ - cin j.succ) := by
      rw [Fin.sum_univ_succ]
      simp only [e0, mul_sub, Finset.sum_sub_distrib, ← Finset.sum_mul]
      have e1 : setInlet u cin 0 j.succ 0 = cin j.succ := by simp [setInlet]
      rw [e1]
      linear_combination cin j.succ * h0
    rw [rhs_eq, assemble_liq, if_neg (Fin.succ_ne_zero w), liqRate, hadv, hflux, e0]
    simp only [mbedRhs, ionPt, ptRhs, ptLin, mpore, ionExc, mflow, Prod.snd_sub, Pi.sub_apply]
    field_simp
    ring

/-- Specification: no concentration below the inlet and no loading of a state is more than `ε` away from the exhausted column. -/
def Spec.IonWithin (cin q : Fin (p + 1) → ℝ) (ε : ℝ) (u : ColState r p z) : Prop :=
  (∀ i w, w ≠ 0 → |u 0 i w - cin i| ≤ ε) ∧ ∀ (k : Fin (r + 1)) i w, |u k.succ i w - q i| ≤ ε

theorem ionExc_norm {ε : ℝ} (hε : 0 ≤ ε) {u : ColState r p z} : ‖ionExc cin q u‖ ≤ ε ↔ Spec.IonWithin cin q ε u := by
  unfold Spec.IonWithin
  rw [norm_prod_le_iff, pi_norm_le_iff_of_nonneg hε, pi_norm_le_iff_of_nonneg hε]
  simp only [norm_prod_le_iff, pi_norm_le_iff_of_nonneg hε, ionExc, Real.norm_eq_abs]
  constructor
  · rintro ⟨h1, h2⟩
    refine ⟨fun i w hw => ?_, fun k i w => ?_⟩
    · obtain ⟨w', rfl⟩ := Fin.exists_succ_eq.2 hw
      exact (h2 w').2 i
    · exact Fin.cases (h1 i k) (fun w => (h2 w).1 i k) w
  · rintro ⟨h1, h2⟩
    exact ⟨fun i k => h2 k i 0, fun w => ⟨fun i k => h2 k i w.succ, fun i => h1 i _ (Fin.succ_ne_zero w)⟩⟩

/-- The state with these excesses, and `e` in the slot of the inlet. -/
noncomputable def ionState (cin q e : Fin (p + 1) → ℝ) (v : MBed (MBead (p + 1) r) (p + 1) z) : ColState r p z := fun a i w =>
  Fin.cases (motive := fun _ => ℝ) (Fin.cases (motive := fun _ => ℝ) (e i) (fun w' => (v.2 w').2 i + cin i) w)
    (fun k => Fin.cases (motive := fun _ => ℝ) (v.1 i k + q i) (fun w' => (v.2 w').1 i k + q i) w) a

theorem ionExc_state (e : Fin (p + 1) → ℝ) (v : MBed (MBead (p + 1) r) (p + 1) z) : ionExc cin q (ionState cin q e v) = v := by
  refine Prod.ext (funext fun i => funext fun k => ?_) (funext fun w => Prod.ext (funext fun i => funext fun k => ?_) (funext fun i => ?_))
  · simp [ionExc, ionState]
  · simp [ionExc, ionState]
  · simp [ionExc, ionState]

theorem ionState_exc {e : Fin (p + 1) → ℝ} {u : ColState r p z} (he : ∀ i, u 0 i 0 = e i) : ionState cin q e (ionExc cin q u) = u := by
  funext a i w
  refine Fin.cases ?_ (fun k => ?_) a
  · refine Fin.cases ?_ (fun w => ?_) w
    · simp [ionState, he]
    · simp [ionState, ionExc]
  · refine Fin.cases ?_ (fun w => ?_) w
    · simp [ionState, ionExc]
    · simp [ionState, ionExc]

theorem ionState_totals (hq : ∑ i, q i = Q) (e : Fin (p + 1) → ℝ) {v : MBed (MBead (p + 1) r) (p + 1) z} (hv : msum v = 0) :
    Spec.Totals (∑ i, cin i) Q (ionState cin q e v) := by
  have s1 : ∀ k, ∑ i, v.1 i k = 0 := fun k => congrFun (congrFun (congrArg Prod.fst hv) 0) k
  have s2 : ∀ w k, ∑ i, (v.2 w).1 i k = 0 := fun w k =>
    congrFun (congrFun (congrArg Prod.fst (congrFun (congrArg Prod.snd hv) w)) 0) k
  have s3 : ∀ w, ∑ i, (v.2 w).2 i = 0 := fun w => congrFun (congrArg Prod.snd (congrFun (congrArg Prod.snd hv) w)) 0
  refine ⟨fun w hw => ?_, fun k w => ?_⟩
  · obtain ⟨w', rfl⟩ := Fin.exists_succ_eq.2 hw
    simp only [ionState, Fin.cases_zero, Fin.cases_succ, Finset.sum_add_distrib, s3, zero_add]
  · refine Fin.cases ?_ (fun w => ?_) w
    · simp only [ionState, Fin.cases_zero, Fin.cases_succ, Finset.sum_add_distrib, s1, zero_add, hq]
    · simp only [ionState, Fin.cases_succ, Finset.sum_add_distrib, s2, zero_add, hq]

/-- Runs of the excesses are runs of the column. -/
theorem ion_solves (h : Spec.AlikeColumn m P jac tH D E k) (hq : ∑ i, q i = Q) (e : Fin (p + 1) → ℝ)
    {x : ℝ → MBed (MBead (p + 1) r) (p + 1) z} {T : ℝ} (h0 : msum (x 0) = 0)
    (hx : ∀ t ∈ Icc 0 T, HasDerivWithinAt x (mbedRhs (ionPt m P tH D E k cin q) (P.v * tH / (P.L * P.EBED)) P.Az (x t)) (Icc 0 T) t) :
    Spec.Solves colComp (fun _ u => m.rhs P tH cin u) 0 T (fun t => ionState cin q e (x t)) := by
  have hz := msum_zero (d := ∑ i, P.val i * q i) ionIso_sum hx h0
  rintro t ht ⟨a, i, w⟩
  have h1 := hx t ht
  rw [show x t = ionExc cin q (ionState cin q e (x t)) from (ionExc_state _ _).symm, ← ion_rates h hq (ionState_totals hq e (hz t ht))] at h1
  have p1 : HasDerivWithinAt (fun s => (x s).1) _ (Icc 0 T) t :=
    (ContinuousLinearMap.fst ℝ (MBead (p + 1) r) (Fin z → MPt (MBead (p + 1) r) (p + 1))).hasFDerivAt.comp_hasDerivWithinAt t h1
  have p2 : HasDerivWithinAt (fun s => (x s).2) _ (Icc 0 T) t :=
    (ContinuousLinearMap.snd ℝ (MBead (p + 1) r) (Fin z → MPt (MBead (p + 1) r) (p + 1))).hasFDerivAt.comp_hasDerivWithinAt t h1
  show HasDerivWithinAt (fun s => ionState cin q e (x s) a i w) (m.rhs P tH cin (ionState cin q e (x t)) a i w) (Icc 0 T) t
  refine Fin.cases ?_ (fun k => ?_) a
  · refine Fin.cases ?_ (fun w => ?_) w
    · rw [rhs_eq, assemble_liq, if_pos rfl]
      refine (hasDerivWithinAt_const t (Icc 0 T) (e i)).congr (fun s _ => ?_) ?_ <;> simp [ionState]
    · have p3 : HasDerivWithinAt (fun s => ((x s).2 w).2) _ (Icc 0 T) t :=
        (ContinuousLinearMap.snd ℝ (MBead (p + 1) r) (Fin (p + 1) → ℝ)).hasFDerivAt.comp_hasDerivWithinAt t (hasDerivWithinAt_pi.1 p2 w)
      refine ((hasDerivWithinAt_pi.1 p3 i).add_const (cin i)).congr (fun s _ => ?_) ?_ <;> simp [ionState]
  · refine Fin.cases ?_ (fun w => ?_) w
    · refine ((hasDerivWithinAt_pi.1 (hasDerivWithinAt_pi.1 p1 i) k).add_const (q i)).congr (fun s _ => ?_) ?_ <;> simp [ionState]
    · have p3 : HasDerivWithinAt (fun s => ((x s).2 w).1) _ (Icc 0 T) t :=
        (ContinuousLinearMap.fst ℝ (MBead (p + 1) r) (Fin (p + 1) → ℝ)).hasFDerivAt.comp_hasDerivWithinAt t (hasDerivWithinAt_pi.1 p2 w)
      refine ((hasDerivWithinAt_pi.1 (hasDerivWithinAt_pi.1 p3 i) k).add_const (q i)).congr (fun s _ => ?_) ?_ <;> simp [ionState]

theorem ionRhs_zero (h : Spec.AlikeColumn m P jac tH D E k) (hc : ∀ i, 0 < cin i) (hq : Spec.SpentLoadings m P cin Q q) :
    ionPt m P tH D E k cin q 0 = 0 := ptRhs_zero (ionIso_zero h.toIonColumn hc hq)

/-- Totals persist. -/
theorem ion_totals (h : Spec.AlikeColumn m P jac tH D E k) (hc : ∀ i, 0 < cin i) (hq : Spec.SpentLoadings m P cin Q q) {T : ℝ}
    {y : ℝ → ColState r p z} (hy : Spec.Solves colComp (fun _ u => m.rhs P tH cin u) 0 T y) (h0 : Spec.Totals (∑ i, cin i) Q (y 0)) :
    ∀ t ∈ Icc 0 T, Spec.Totals (∑ i, cin i) Q (y t) := by
  intro t ht
  have hzero : msum (0 : MBed (MBead (p + 1) r) (p + 1) z) = 0 := by
    refine Prod.ext (funext fun _ => funext fun k => ?_) (funext fun w => Prod.ext (funext fun _ => funext fun k => ?_) (funext fun _ => ?_)) <;>
      simp [msum]
  have hrest := ion_solves (cin := cin) h hq.total cin (x := fun _ => 0) (T := T) hzero (fun t _ => by
    have : mbedRhs (ionPt m P tH D E k cin q) (P.v * tH / (P.L * P.EBED)) P.Az (0 : MBed (MBead (p + 1) r) (p + 1) z) = 0 := by
      have hz := ionRhs_zero (tH := tH) h hc hq
      have hz' : ionPt m P tH D E k cin q ((0 : MBead (p + 1) r), 0) = 0 := hz
      refine Prod.ext ?_ (funext fun w => ?_)
      · show (ionPt m P tH D E k cin q ((0 : MBead (p + 1) r), 0)).1 = 0
        rw [hz']
        rfl
      · show ionPt m P tH D E k cin q 0 - ((0 : MBead (p + 1) r), mflow _ P.Az 0 w) = 0
        rw [hz]
        refine Prod.ext ?_ (funext fun i => ?_)
        · simp
        · simp [mflow]
    rw [this]
    exact hasDerivWithinAt_const _ _ _)
  have hx := ionState_totals (cin := cin) hq.total cin hzero
  refine ⟨fun w hw => ?_, fun k w => ?_⟩
  · have := totals_follow m P tH (cin := fun _ => cin) (cin' := fun _ => cin) (fun s hs => rfl) hrest hy
      (fun w hw => by rw [h0.water w hw, hx.water w hw]) t ht w hw
    rw [this, hx.water w hw]
  · rw [c28_solutions m P tH (fun _ => cin) hy ht, h0.beads]

theorem ion_energy (h : Spec.AlikeColumn m P jac tH D E k) (hc : ∀ i, 0 < cin i) (hq : Spec.SpentLoadings m P cin Q q) :
    ∃ (L : MPt (MBead (p + 1) r) (p + 1) →L[ℝ] MPt (MBead (p + 1) r) (p + 1))
      (e : MPt (MBead (p + 1) r) (p + 1) →L[ℝ] MPt (MBead (p + 1) r) (p + 1) →L[ℝ] ℝ)
      (H : MBead (p + 1) r →L[ℝ] (Fin (p + 1) → ℝ)) (ℓ : (Fin (p + 1) → ℝ) →L[ℝ] (Fin (p + 1) → ℝ)) (lam : Fin (p + 1) → ℝ), PtEnergy L e H ℓ lam ∧ HasFDerivAt (ionPt m P tH D E k cin q) L 0 := by
  have hb := h.size
  have hE0 := h.bed.1
  have hE1 : 0 < 1 - P.EBED := sub_pos.2 h.bed.2
  have ht := h.time
  have hD := h.rates.1
  have hk := h.rates.2
  exact ⟨_, _, _, _, _, pt_energy (f := fun _ => tH * k / P.rb) (μ := fun _ => 3 * (1 - P.EBED) / P.EBED) h.grid
    (ion_comp h.toIonColumn hc hq (ionAlpha_nonneg h) (b := D * tH / P.rb ^ 2) (by positivity)) (fun _ => by positivity) (fun _ => by positivity),
    ptRhs_deriv ((ionIso_smooth h.toIonColumn hc hq).differentiableAt (by norm_num)).hasFDerivAt⟩

theorem ion_deriv (h : Spec.AlikeColumn m P jac tH D E k) (hc : ∀ i, 0 < cin i) (hq : Spec.SpentLoadings m P cin Q q) {T : ℝ}
    {y : ℝ → ColState r p z} (hy : Spec.Solves colComp (fun _ u => m.rhs P tH cin u) 0 T y) (h0 : Spec.Totals (∑ i, cin i) Q (y 0)) :
    ∀ t ∈ Icc 0 T, HasDerivWithinAt (fun s => ionExc cin q (y s)) (mbedRhs (ionPt m P tH D E k cin q) (P.v * tH / (P.L * P.EBED)) P.Az
      (ionExc cin q (y t))) (Icc 0 T) t := by
  intro t ht
  rw [← ion_rates h hq.total (ion_totals h hc hq hy h0 t ht)]
  refine HasDerivWithinAt.prodMk (hasDerivWithinAt_pi.2 fun i => hasDerivWithinAt_pi.2 fun k => ?_) (hasDerivWithinAt_pi.2 fun w =>
    HasDerivWithinAt.prodMk (hasDerivWithinAt_pi.2 fun i => hasDerivWithinAt_pi.2 fun k => ?_) (hasDerivWithinAt_pi.2 fun i => ?_))
  · exact (hy t ht (k.succ, i, 0)).sub_const _
  · exact (hy t ht (k.succ, i, w.succ)).sub_const _
  · exact (hy t ht (0, i, w.succ)).sub_const _

theorem ion_flow (h : Spec.AlikeColumn m P jac tH D E k) : 0 < P.v * tH / (P.L * P.EBED) :=
  div_pos (mul_pos h.flow.1 h.time) (mul_pos h.flow.2 h.bed.1)

/-- C264. Every run that starts near the exhausted column, with the totals that `solve` starts from, tends to it exponentially: any number of
ions, any selectivities, any numbers of radial and axial nodes. -/
theorem c264_near (h : Spec.AlikeColumn m P jac tH D E k) (hc : ∀ i, 0 < cin i) (hq : Spec.SpentLoadings m P cin Q q) :
    ∃ δ C ω : ℝ, 0 < δ ∧ 0 < C ∧ 0 < ω ∧ ∀ (ε T : ℝ) (y : ℝ → ColState r p z),
    Spec.Solves colComp (fun _ u => m.rhs P tH cin u) 0 T y → Spec.Totals (∑ i, cin i) Q (y 0) → Spec.IonWithin cin q ε (y 0) → ε ≤ δ →
    ∀ t ∈ Icc 0 T, Spec.IonWithin cin q (C * Real.exp (-(ω * t)) * ε) (y t) := by
  obtain ⟨L, e, H, ℓ, lam, he, hL⟩ := ion_energy h hc hq
  obtain ⟨G, hG⟩ := axial_form h.axial
  obtain ⟨δ, C, ω, hδ, hC, hω, hx⟩ := mbed_local he (axial_moves h.axial) hG (ion_flow h) hL (ionRhs_zero h hc hq)
  refine ⟨δ, C, ω, hδ, hC, hω, fun ε T y hy hT h0 hε t ht => ?_⟩
  have hε0 : 0 ≤ ε := (abs_nonneg _).trans (h0.2 0 0 0)
  have hn := (ionExc_norm hε0).2 h0
  have := hx (fun s => ionExc cin q (y s)) T (ion_deriv h hc hq hy hT) (hn.trans hε) t ht
  exact (ionExc_norm (by positivity)).1 (this.trans (mul_le_mul_of_nonneg_left hn (by positivity)))

/-- C264. From every such state near the exhausted column there is a run for all time, and exactly one. -/
theorem c264_run (h : Spec.AlikeColumn m P jac tH D E k) (hc : ∀ i, 0 < cin i) (hq : Spec.SpentLoadings m P cin Q q) :
    ∃ δ : ℝ, 0 < δ ∧ ∀ u : ColState r p z, Spec.Totals (∑ i, cin i) Q u → Spec.IonWithin cin q δ u →
    ∃ y : ℝ → ColState r p z, y 0 = u ∧ (∀ T, Spec.Solves colComp (fun _ u => m.rhs P tH cin u) 0 T y) ∧
      ∀ T x, Spec.Solves colComp (fun _ u => m.rhs P tH cin u) 0 T x → x 0 = u → ∀ t ∈ Icc 0 T, x t = y t := by
  obtain ⟨L, e, H, ℓ, lam, he, hL⟩ := ion_energy h hc hq
  obtain ⟨G, hG⟩ := axial_form h.axial
  obtain ⟨δ, hδ, hx⟩ := mbed_run he (axial_moves h.axial) hG (ion_flow h) (ptRhs_smooth (ionIso_smooth h.toIonColumn hc hq)) hL (ionRhs_zero h hc hq)
  refine ⟨δ, hδ, fun u hT hu => ?_⟩
  obtain ⟨x, hx0, hxd, hxu⟩ := hx (ionExc cin q u) ((ionExc_norm hδ.le).2 hu)
  refine ⟨fun t => ionState cin q (fun i => u 0 i 0) (x t), ?_, fun T => ion_solves h hq.total _ (by rw [hx0]; exact ionExc_sum hq.total hT) (hxd T),
    fun T x' hx' h0 t ht => ?_⟩
  · beta_reduce
    rw [hx0]
    exact ionState_exc fun _ => rfl
  · have h1 := hxu T (fun s => ionExc cin q (x' s)) (by beta_reduce; rw [h0]) (ion_deriv h hc hq hx' (by rw [h0]; exact hT)) t ht
    have h2 : ∀ i, x' t 0 i 0 = u 0 i 0 := by
      intro i
      rw [← h0]
      refine constant_of_derivWithin_zero (f := fun s => x' s 0 i 0) (a := 0) (b := T)
        (fun s hs => (hx' s hs (0, i, 0)).differentiableWithinAt) (fun s hs => ?_) t ht
      have h3 := hx' s ⟨hs.1, hs.2.le⟩ (0, i, 0)
      have h4 : colComp (0, i, 0) (m.rhs P tH cin (x' s)) = 0 := by
        show m.rhs P tH cin (x' s) 0 i 0 = 0
        rw [rhs_eq, assemble_liq, if_pos rfl]
      beta_reduce at h3
      rw [h4] at h3
      exact h3.derivWithin (uniqueDiffOn_Icc (hs.1.trans_lt hs.2) s ⟨hs.1, hs.2.le⟩)
    beta_reduce
    rw [← h1]
    exact (ionState_exc h2).symm

/-- C264. Every run for all time with these totals, whatever its start, either keeps away from the exhausted column for ever or tends
to it. -/
theorem c264_either (h : Spec.AlikeColumn m P jac tH D E k) (hc : ∀ i, 0 < cin i) (hq : Spec.SpentLoadings m P cin Q q) :
    ∃ δ : ℝ, 0 < δ ∧ ∀ y : ℝ → ColState r p z, (∀ T, Spec.Solves colComp (fun _ u => m.rhs P tH cin u) 0 T y) →
    Spec.Totals (∑ i, cin i) Q (y 0) →
    (∀ t, 0 ≤ t → ¬ Spec.IonWithin cin q δ (y t)) ∨
    ((∀ i w, w ≠ 0 → Tendsto (fun t => y t 0 i w) atTop (nhds (cin i))) ∧
      ∀ (k : Fin (r + 1)) i w, Tendsto (fun t => y t k.succ i w) atTop (nhds (q i))) := by
  obtain ⟨δ, C, ω, hδ, hC, hω, hx⟩ := c264_near h hc hq
  refine ⟨δ, hδ, fun y hy hT => ?_⟩
  by_cases hs : ∃ s, 0 ≤ s ∧ Spec.IonWithin cin q δ (y s)
  · obtain ⟨s, hs0, hs⟩ := hs
    right
    have hst := ion_totals h hc hq (hy s) hT s ⟨hs0, le_rfl⟩
    have hW : ∀ t, s ≤ t → Spec.IonWithin cin q (C * Real.exp (-(ω * (t - s))) * δ) (y t) := by
      intro t ht
      have := hx δ (t - s) (fun τ => y (s + τ)) (col_shift hs0 (hy _)) (by rw [add_zero]; exact hst) (by rw [add_zero]; exact hs) le_rfl
        (t - s) ⟨by linarith, le_rfl⟩
      rwa [add_sub_cancel] at this
    have hlim : Tendsto (fun t => C * Real.exp (-(ω * (t - s))) * δ) atTop (nhds 0) := by
      have h1 : Tendsto (fun t : ℝ => ω * (t - s)) atTop atTop := (tendsto_atTop_add_const_right _ (-s) tendsto_id).const_mul_atTop hω
      have h3 := ((Real.tendsto_exp_neg_atTop_nhds_zero.comp h1).const_mul C).mul_const δ
      simpa using h3
    have key : ∀ (f : ℝ → ℝ) (b : ℝ), (∀ t, s ≤ t → |f t - b| ≤ C * Real.exp (-(ω * (t - s))) * δ) → Tendsto f atTop (nhds b) := by
      intro f b hf
      rw [tendsto_iff_dist_tendsto_zero]
      refine squeeze_zero' (Eventually.of_forall fun t => dist_nonneg) ?_ hlim
      filter_upwards [eventually_ge_atTop s] with t h0
      rw [Real.dist_eq]
      exact hf t h0
    exact ⟨fun i w hw => key _ _ fun t ht => (hW t ht).1 i w hw, fun k i w => key _ _ fun t ht => (hW t ht).2 k i w⟩
  · left
    push Not at hs
    exact hs

/-- C264. The exhausted column exists and is unique: for any influent and capacity there is exactly one set of loadings in equilibrium. -/
theorem c264_exists (h : Spec.IonColumn m P jac tH) (hc : ∀ i, 0 < cin i) (hQ : 0 < Q) : ∃! q, Spec.SpentLoadings m P cin Q q := by
  have hl := colDiv_pos h
  have hv1 : ∀ i, P.val i ≠ 0 := fun i => by rcases h.valence.2 i with e | e <;> omega
  have hK := h.select.2
  set d := colDiv m P with hd
  set S : ℝ → ℝ := fun s => ∑ i, P.K i * cin i * s ^ P.val i with hS
  have hcont : Continuous S := by rw [hS]; fun_prop
  have hmono : ∀ s t, 0 ≤ s → s < t → S s < S t := fun s t h0 hst =>
    Finset.sum_lt_sum_of_nonempty Finset.univ_nonempty fun i _ =>
      mul_lt_mul_of_pos_left (pow_lt_pow_left₀ hst h0 (hv1 i)) (mul_pos (hK i) (hc i))
  have h0 : S 0 = 0 := Finset.sum_eq_zero fun i _ => by rw [zero_pow (hv1 i), mul_zero]
  set b := Q / d / cin 0 with hb
  have hb0 : 0 < b := by have := hc 0; positivity
  have hle : Q / d ≤ S b := by
    have h1 : P.K 0 * cin 0 * b ^ P.val 0 ≤ S b := Finset.single_le_sum (f := fun i => P.K i * cin i * b ^ P.val i)
      (fun i _ => mul_nonneg (mul_pos (hK i) (hc i)).le (pow_nonneg hb0.le _)) (Finset.mem_univ 0)
    rw [h.select.1, h.valence.1, pow_one, one_mul, hb, mul_div_cancel₀ _ (hc 0).ne'] at h1
    exact h1
  obtain ⟨s, hs, hsS⟩ := intermediate_value_Icc hb0.le hcont.continuousOn (show Q / d ∈ Icc (S 0) (S b) from ⟨by rw [h0]; positivity, hle⟩)
  have hs0 : 0 < s := by
    refine lt_of_le_of_ne hs.1 fun e => ?_
    rw [← e, h0] at hsS
    exact (div_pos hQ hl).ne hsS
  -- loadings of a solution
  have hform : ∀ q', Spec.SpentLoadings m P cin Q q' → ∃ t, 0 < t ∧ S t = Q / d ∧ q' = fun i => d * (P.K i * cin i * t ^ P.val i) := by
    intro q' hq'
    have hq0 := hq'.pos 0
    have e : ∀ i, q' i = d * (P.K i * cin i * (q' 0 / d / cin 0) ^ P.val i) := by
      intro i
      have := hq'.law i
      beta_reduce at this
      rw [load_colDiv, load_colDiv, ← hd] at this
      have hcp := pow_pos (hc 0) (P.val i)
      rw [div_pow _ (cin 0)]
      field_simp at this ⊢
      linarith
    refine ⟨q' 0 / d / cin 0, div_pos (div_pos hq0 hl) (hc 0), ?_, funext e⟩
    rw [eq_div_iff hl.ne', ← hq'.total, hS]
    beta_reduce
    rw [mul_comm, Finset.mul_sum]
    exact Finset.sum_congr rfl fun i _ => (e i).symm
  refine ⟨fun i => d * (P.K i * cin i * s ^ P.val i), ⟨fun i => ?_, ?_, fun i => ?_⟩, fun q' hq' => ?_⟩
  · have := hK i
    have := hc i
    positivity
  · rw [← Finset.mul_sum]
    show d * S s = Q
    rw [hsS]
    field_simp
  · beta_reduce
    rw [load_colDiv, load_colDiv, ← hd, mul_div_cancel_left₀ _ hl.ne', mul_div_cancel_left₀ _ hl.ne', h.select.1, h.valence.1, pow_one, one_mul,
      mul_pow]
    ring
  · obtain ⟨t, ht, htS, e⟩ := hform q' hq'
    have : t = s := by
      rcases lt_trichotomy t s with h1 | h1 | h1
      · have := hmono t s ht.le h1; rw [htS, hsS] at this; exact absurd this (lt_irrefl _)
      · exact h1
      · have := hmono s t hs0.le h1; rw [htS, hsS] at this; exact absurd this (lt_irrefl _)
    rw [e, this]

/-- C264. If a run tends to the exhausted column, the area between influent and effluent tends to what the exhausted column holds less what
was in it at the start, ion by ion. -/
theorem c264_area (h : Spec.IonColumn m P jac tH) (hM : 2 ≤ z) : ∃ g : Fin (z + 1) → ℝ, g 0 = 0 ∧ ∑ w, g w = 1 ∧ ∀ (y : ℝ → ColState r p z),
    (∀ T, Spec.Solves colComp (fun _ u => m.rhs P tH cin u) 0 T y) →
    (∀ i w, w ≠ 0 → Tendsto (fun t => y t 0 i w) atTop (nhds (cin i))) →
    (∀ (k : Fin (r + 1)) i w, Tendsto (fun t => y t k.succ i w) atTop (nhds (q i))) → ∀ i,
    Tendsto (fun T => P.v / P.L * tH * ∫ t in (0 : ℝ)..T, (cin i - y t 0 i (Fin.last z))) atTop
      (nhds (P.EBED * cin i + (1 - P.EBED) * q i - Spec.colContent P.EBED P.Wr g (y 0) i)) := by
  obtain ⟨g, hgi, hsum, hgt⟩ := axial_mean h.axial hM
  refine ⟨g, hgi, hsum, fun y hy hlq hbd i => ?_⟩
  have hW := (h.grid.wpos (Fin.last r)).ne'
  have hW3 : ∑ k, P.Wr k = 1 / 3 := by
    rw [h.grid.weights]
    exact (c17_positive_sum (Nat.succ_pos r) (radialNodes_inj h.grid.zeros.1 (fun i => (h.grid.zeros.2.1 i).2))
      (radialNodes_pos (fun i => (h.grid.zeros.2.1 i).1)) (by norm_num : (0:ℝ) < 3)).2
  have hlim : Tendsto (fun T => Spec.colContent P.EBED P.Wr g (y T) i) atTop
      (nhds (∑ w, g w * (P.EBED * cin i + (1 - P.EBED) * (3 * ∑ k : Fin (r + 1), P.Wr k * q i)))) := by
    unfold Spec.colContent
    refine tendsto_finsetSum _ fun w _ => ?_
    by_cases hw : w = 0
    · rw [hw, hgi]
      simp only [zero_mul]
      exact tendsto_const_nhds
    · refine ((((hlq i w hw).const_mul P.EBED).add ?_).const_mul (g w))
      refine ((tendsto_finsetSum _ fun k _ => (hbd k i w).const_mul (P.Wr k)).const_mul 3).const_mul _
  have hend : ∑ w, g w * (P.EBED * cin i + (1 - P.EBED) * (3 * ∑ k : Fin (r + 1), P.Wr k * q i)) =
      P.EBED * cin i + (1 - P.EBED) * q i := by
    rw [← Finset.sum_mul, hsum, ← Finset.sum_mul, hW3]
    ring
  rw [hend] at hlim
  refine (hlim.sub_const (Spec.colContent P.EBED P.Wr g (y 0) i)).congr' ?_
  filter_upwards [eventually_ge_atTop 0] with T hT
  have hco : IntervalIntegrable (fun t => y t 0 i (Fin.last z)) MeasureTheory.volume 0 T := by
    apply ContinuousOn.intervalIntegrable
    rw [Set.uIcc_of_le hT]
    exact solves_continuousOn (hy T) (0, i, Fin.last z)
  rw [c155_solutions m P (by omega) tH (fun _ => cin) hW h.bed.1.ne' hgi hgt i hT (hy T) intervalIntegrable_const,
    intervalIntegral.integral_sub intervalIntegrable_const hco]

end

/-- The hypotheses meet: chloride, sulfate and nitrate of one mobility, and a column that starts slightly off exhaustion. -/
example (m : ColModel) (r z : ℕ) (A : Fin (z + 1) → Fin (z + 1) → ℝ) (hA : Spec.AxialGrid z A) : ∃ (P : ColParams r 2 z) (q : Fin 3 → ℝ)
    (y : ℝ → ColState r 2 z), P.K 1 = 10 ∧ P.val 1 = 2 ∧ P.K 2 = 3 ∧ P.val 2 = 1 ∧ (∀ i, 0 < q i) ∧
    (∀ T, Spec.Solves colComp (fun _ u => m.rhs P 1 ![1, 2, 4] u) 0 T y) ∧ y 0 1 1 0 ≠ q 1 ∧
    (∀ i, Tendsto (fun t => y t 0 i (Fin.last z)) atTop (nhds (![1, 2, 4] i))) ∧ ∀ i, Tendsto (fun t => y t 1 i 0) atTop (nhds (q i)) := by
  obtain ⟨jac, B, W, g⟩ := beadGrid_exists r
  have hlast : Fin.last z ≠ 0 := fun e => by have := congrArg Fin.val e; have := axial_pos hA; simp at *; omega
  let P : ColParams r 2 z := ⟨1 / 2, 1, 1, 1, 5, 1 / 2, fun _ => 1, fun _ => 1, fun _ => 2, ![1, 10, 3], ![1, 2, 1], A, B, W⟩
  have hP : Spec.AlikeColumn m P jac 1 1 2 1 := ⟨⟨g, hA, by show (0 : ℝ) < 1 / 2 ∧ (1 / 2 : ℝ) < 1; norm_num, ⟨one_pos, one_pos⟩, one_pos, one_pos,
    fun _ => ⟨by show (0 : ℝ) ≤ 1 / 2; norm_num, by show (1 / 2 : ℝ) < 1; norm_num⟩, ⟨rfl, fun i => by fin_cases i <;> simp [P]⟩,
    ⟨rfl, fun i => by fin_cases i <;> simp [P]⟩⟩, ⟨one_pos, one_pos⟩, fun _ _ => ⟨rfl, rfl⟩, fun _ => ⟨by norm_num, fun _ _ => rfl⟩⟩
  have hc : ∀ i, 0 < (![1, 2, 4] : Fin 3 → ℝ) i := fun i => by fin_cases i <;> simp
  obtain ⟨q, hq, -⟩ := c264_exists (cin := ![1, 2, 4]) (Q := 5) hP.toIonColumn hc (by norm_num)
  obtain ⟨δ1, hδ1, hrun⟩ := c264_run hP hc hq
  obtain ⟨δ2, hδ2, heither⟩ := c264_either hP hc hq
  set δ := min δ1 δ2 with hδ
  have hδ0 : 0 < δ := lt_min hδ1 hδ2
  let x : MBed (MBead 3 r) 3 z := (fun i _ => ![-δ, δ, 0] i, 0)
  have hx : ‖x‖ ≤ δ := by
    rw [norm_prod_le_iff]
    refine ⟨(pi_norm_le_iff_of_nonneg hδ0.le).2 fun i => (pi_norm_le_iff_of_nonneg hδ0.le).2 fun _ => ?_, ?_⟩
    · fin_cases i <;> simp [x, abs_of_pos hδ0, hδ0.le]
    · show ‖(0 : Fin z → MPt (MBead 3 r) 3)‖ ≤ δ; rw [norm_zero]; exact hδ0.le
  have hxs : msum x = 0 := by
    refine Prod.ext (funext fun _ => funext fun k => ?_) (funext fun w => Prod.ext (funext fun _ => funext fun k => ?_) (funext fun _ => ?_))
    · show ∑ i, (![-δ, δ, 0] : Fin 3 → ℝ) i = 0
      rw [Fin.sum_univ_three]
      simp
    · simp [msum, x]
    · simp [msum, x]
  set u := ionState ![1, 2, 4] q ![1, 2, 4] x with hu
  have hT : Spec.Totals (∑ i, (![1, 2, 4] : Fin 3 → ℝ) i) 5 u := ionState_totals hq.total _ hxs
  have hw : ∀ d, δ ≤ d → Spec.IonWithin ![1, 2, 4] q d u := fun d hd =>
    (ionExc_norm (hδ0.le.trans hd)).1 (by rw [ionExc_state]; exact hx.trans hd)
  obtain ⟨y, hy0, hy, -⟩ := hrun u hT (hw _ (min_le_left _ _))
  rcases heither y hy (by rw [hy0]; exact hT) with h | h
  · exact absurd (by rw [hy0]; exact hw _ (min_le_right _ _)) (h 0 le_rfl)
  · refine ⟨P, q, y, rfl, rfl, rfl, rfl, hq.pos, hy, ?_, fun i => h.1 i _ hlast, fun i => h.2 0 i 0⟩
    rw [hy0]
    have : u 1 1 0 = δ + q 1 := by
      rw [hu, show (1 : Fin (r + 2)) = (0 : Fin (r + 1)).succ from rfl]
      rfl
    rw [this]
    intro e
    linarith

end WTM
