import Verif.Lemmas.Unique
import Verif.Props.IexRestart
import Verif.Props.IexBatch
import Mathlib.Analysis.SpecialFunctions.Sqrt

/-! C209: the ion exchange models have a solution from every state the formulas are regular at, and only one. -/
set_option autoImplicit false
namespace WTM
open BigOperators Set

variable {r p z : ℕ}

namespace Spec

/-- No division by zero on the way to the equilibrium of loadings `q`, and no root of zero or of a negative number. -/
def EqRegular (K : Fin (p + 1) → ℝ) (val : Fin (p + 1) → ℕ) (q : Fin (p + 1) → ℝ) (CT : ℝ) : Prop :=
  if ∃ i, val i = 2 then q 0 ≠ 0 ∧ 0 < eqBB K val q ^ 2 + 4 * eqAA K val q * CT ∧
    eqBB K val q + Real.sqrt (eqBB K val q ^ 2 + 4 * eqAA K val q * CT) ≠ 0
  else ∀ i, ∑ j, K i / K j * q j ≠ 0

end Spec

section eq
variable {K : Fin (p + 1) → ℝ} {val : Fin (p + 1) → ℕ} {q : Fin (p + 1) → ℝ} {CT : ℝ}

/-- Nonnegative loadings with some presaturant, and water that is not negative in total, are regular. -/
theorem eqRegular_of (h : DvOk K val q) (hCT : 0 ≤ CT) : Spec.EqRegular K val q CT := by
  unfold Spec.EqRegular
  split
  · have h1 := eqAA_nonneg h
    have h2 := eqBB_ge h
    have h3 : 0 ≤ 4 * eqAA K val q * CT := by positivity
    refine ⟨h.qref.ne', by nlinarith, ?_⟩
    have := Real.sqrt_nonneg (eqBB K val q ^ 2 + 4 * eqAA K val q * CT)
    linarith
  · intro i
    have : 0 < K i / K 0 * q 0 := mul_pos (div_pos (h.Kpos i) (h.Kpos 0)) h.qref
    refine ne_of_gt (lt_of_lt_of_le this ?_)
    exact Finset.single_le_sum (f := fun j => K i / K j * q j)
      (fun j _ => mul_nonneg (div_pos (h.Kpos i) (h.Kpos j)).le (h.qnonneg j)) (Finset.mem_univ 0)

variable {X : Type} [NormedAddCommGroup X] [NormedSpace ℝ X] {Q : X → Fin (p + 1) → ℝ} {C : X → ℝ} {x : X}

theorem eqAA_smooth (hQ : ∀ i, ContDiffAt ℝ 1 (fun x => Q x i) x) (h0 : Q x 0 ≠ 0) :
    ContDiffAt ℝ 1 (fun x => eqAA K val (Q x)) x := by
  unfold eqAA
  refine ContDiffAt.div (ContDiffAt.sum fun i _ => ?_) ((hQ 0).pow 2) (pow_ne_zero _ h0)
  split
  · exact (hQ i).div_const _
  · exact contDiffAt_const

theorem eqBB_smooth (hQ : ∀ i, ContDiffAt ℝ 1 (fun x => Q x i) x) (h0 : Q x 0 ≠ 0) :
    ContDiffAt ℝ 1 (fun x => eqBB K val (Q x)) x := by
  unfold eqBB
  refine ContDiffAt.add (ContDiffAt.div (ContDiffAt.sum fun i _ => ?_) (hQ 0) h0) contDiffAt_const
  split
  · exact (hQ i).div_const _
  · exact contDiffAt_const

theorem ceqOfRef_smooth (hQ : ∀ i, ContDiffAt ℝ 1 (fun x => Q x i) x) (h0 : Q x 0 ≠ 0) {R : X → ℝ}
    (hR : ContDiffAt ℝ 1 R x) (i : Fin (p + 1)) : ContDiffAt ℝ 1 (fun x => ceqOfRef K val (Q x) (R x) i) x := by
  unfold ceqOfRef
  split
  · exact hR
  · exact ((hQ i).div_const _).mul ((hR.div (hQ 0) h0).pow _)

theorem ceqMv_smooth (hQ : ∀ i, ContDiffAt ℝ 1 (fun x => Q x i) x) (hC : ContDiffAt ℝ 1 C x) (i : Fin (p + 1))
    (h : ∑ j, K i / K j * Q x j ≠ 0) : ContDiffAt ℝ 1 (fun x => ceqMv K (Q x) (C x) i) x := by
  unfold ceqMv alphaMat
  exact ((hQ i).mul hC).div (ContDiffAt.sum fun j _ => contDiffAt_const.mul (hQ j)) h

theorem ceq_smooth (hQ : ∀ i, ContDiffAt ℝ 1 (fun x => Q x i) x) (hC : ContDiffAt ℝ 1 C x)
    (h : Spec.EqRegular K val (Q x) (C x)) (i : Fin (p + 1)) :
    ContDiffAt ℝ 1 (fun x => ceq K val (Q x) (C x) i) x := by
  unfold Spec.EqRegular at h
  unfold ceq
  by_cases hdv : ∃ i, val i = 2
  · rw [if_pos hdv] at h
    obtain ⟨h0, h1, h2⟩ := h
    simp only [if_pos hdv]
    unfold ceqDv
    refine ceqOfRef_smooth hQ h0 ?_ i
    unfold refConc
    have ha := eqAA_smooth (K := K) (val := val) hQ h0
    have hb := eqBB_smooth (K := K) (val := val) hQ h0
    have e : eqBB K val (Q x) ^ 2 - 4 * eqAA K val (Q x) * -C x = eqBB K val (Q x) ^ 2 + 4 * eqAA K val (Q x) * C x := by
      ring
    refine (contDiffAt_const.mul hC.neg).div (hb.neg.sub (ContDiffAt.sqrt ?_ ?_)) ?_
    · exact (hb.pow 2).sub ((contDiffAt_const.mul ha).mul hC.neg)
    · rw [e]; exact h1.ne'
    · rw [e]
      intro h3
      exact h2 (by linarith)
  · rw [if_neg hdv] at h
    simp only [if_neg hdv]
    exact ceqMv_smooth hQ hC i (h i)

end eq

/-! ### Columns -/

/-- The state of a column, with influent `cin`, at which every equilibrium the rates use is regular. -/
def ColModel.Regular (m : ColModel) (P : ColParams r p z) (cin : Fin (p + 1) → ℝ) (u : ColState r p z) : Prop :=
  match m with
  | .hsdm => ∀ w, Spec.EqRegular P.K P.val (fun i => u (Fin.last (r + 1)) i w)
      (if w = 0 then ∑ i, cin i else ∑ i, u 0 i w)
  | .psdm => ∀ (k : Fin (r + 1)) w, Spec.EqRegular P.K P.val (fun i => u k.succ i w / (1 - P.EPOR))
      (if w = 0 then ∑ i, cin i else ∑ i, u 0 i w)

theorem setInlet_total (u : ColState r p z) (cin : Fin (p + 1) → ℝ) (w : Fin (z + 1)) :
    ∑ i, setInlet u cin 0 i w = if w = 0 then ∑ i, cin i else ∑ i, u 0 i w := by
  unfold setInlet
  by_cases h : w = 0 <;> simp [h]

theorem setInlet_bead (u : ColState r p z) (cin : Fin (p + 1) → ℝ) (k : Fin (r + 1)) (i : Fin (p + 1))
    (w : Fin (z + 1)) : setInlet u cin k.succ i w = u k.succ i w := by
  unfold setInlet
  rw [if_neg]
  rintro ⟨h, -⟩
  exact Fin.succ_ne_zero _ h

theorem setInlet_smooth (a : Fin (r + 2)) (i : Fin (p + 1)) (w : Fin (z + 1))
    (x : (Fin (p + 1) → ℝ) × ColState r p z) :
    ContDiffAt ℝ 1 (fun x : (Fin (p + 1) → ℝ) × ColState r p z => setInlet x.2 x.1 a i w) x := by
  unfold setInlet
  split
  · exact (contDiff_apply ℝ ℝ i).contDiffAt.comp x contDiffAt_fst
  · have h1 : ContDiff ℝ 1 (fun u : ColState r p z => u a i w) := by fun_prop
    exact h1.contDiffAt.comp x contDiffAt_snd

theorem implicitRef_smooth {X : Type} [NormedAddCommGroup X] [NormedSpace ℝ X] {f : X → Fin (p + 1) → ℝ} {x : X}
    (h : ∀ i, ContDiffAt ℝ 1 (fun x => f x i) x) (i : Fin (p + 1)) :
    ContDiffAt ℝ 1 (fun x => implicitRef (f x) i) x := by
  unfold implicitRef
  split
  · exact (ContDiffAt.sum fun j _ => h j.succ).neg
  · exact h i

/-- The rates of a column are continuously differentiable in influent and state wherever the state is regular. -/
theorem rhs_smooth (m : ColModel) (P : ColParams r p z) (tH : ℝ) (x : (Fin (p + 1) → ℝ) × ColState r p z)
    (h : m.Regular P x.1 x.2) :
    ContDiffAt ℝ 1 (fun x : (Fin (p + 1) → ℝ) × ColState r p z => m.rhs P tH x.1 x.2) x := by
  have hu := fun a i w => setInlet_smooth (r := r) (p := p) (z := z) a i w x
  have hT : ∀ w, ContDiffAt ℝ 1
      (fun x : (Fin (p + 1) → ℝ) × ColState r p z => ∑ i, setInlet x.2 x.1 0 i w) x :=
    fun w => ContDiffAt.sum fun i _ => hu 0 i w
  have hJ : ∀ i w, ContDiffAt ℝ 1
      (fun x : (Fin (p + 1) → ℝ) × ColState r p z => m.flux P (setInlet x.2 x.1) i w) x := by
    intro i w
    unfold ColModel.flux fluxJ
    refine implicitRef_smooth (fun i => contDiffAt_const.mul ((hu 0 i w).sub ?_)) i
    cases m
    · refine ceq_smooth (fun i => hu _ i w) (hT w) ?_ i
      have := h w
      rw [← setInlet_total] at this
      simpa only [ColModel.load, ← Fin.succ_last, setInlet_bead] using this
    · refine ceq_smooth (fun i => (hu _ i w).div_const _) (hT w) ?_ i
      have := h (Fin.last r) w
      rw [← setInlet_total] at this
      simpa only [ColModel.load, ← Fin.succ_last, setInlet_bead] using this
  have hq : ∀ k i w, ContDiffAt ℝ 1
      (fun x : (Fin (p + 1) → ℝ) × ColState r p z => m.bead P tH (setInlet x.2 x.1) k i w) x := by
    intro k i w
    cases m
    · simp only [ColModel.bead, hsdmBead]
      refine implicitRef_smooth (fun i => ?_) i
      exact contDiffAt_const.mul (ContDiffAt.sum fun l _ => contDiffAt_const.mul (hu _ i w))
    · simp only [ColModel.bead, psdmBead]
      refine implicitRef_smooth (fun i => ?_) i
      refine ContDiffAt.div_const (contDiffAt_const.mul (ContDiffAt.add
        (contDiffAt_const.mul (ContDiffAt.sum fun l _ => contDiffAt_const.mul ?_))
        (contDiffAt_const.mul (ContDiffAt.sum fun l _ => contDiffAt_const.mul (hu _ i w))))) _
      refine ceq_smooth (fun i => (hu _ i w).div_const _) (hT w) ?_ i
      have := h l w
      rw [← setInlet_total] at this
      simpa only [setInlet_bead] using this
  refine contDiffAt_pi.2 fun a => contDiffAt_pi.2 fun i => contDiffAt_pi.2 fun w => ?_
  simp only [rhs_eq]
  refine Fin.cases ?_ (fun k => ?_) a
  · simp only [assemble_liq]
    split
    · exact contDiffAt_const
    · unfold liqRate
      exact ContDiffAt.mul (ContDiffAt.div_const (ContDiffAt.add (contDiffAt_const.mul
        (ContDiffAt.sum fun w' _ => contDiffAt_const.mul (hu 0 i w')))
        (contDiffAt_const.mul (((hJ i w).mul contDiffAt_const).div_const _))) _) contDiffAt_const
  · simp only [assemble_bead]
    split
    · exact ContDiffAt.div_const ((contDiffAt_const.mul (hJ i w)).sub
        (ContDiffAt.sum fun k' _ => contDiffAt_const.mul (hq _ i w))) _
    · exact hq k i w

theorem solves_col {F : ℝ → ColState r p z → ColState r p z} {t0 t1 : ℝ} {y : ℝ → ColState r p z} :
    Spec.Solves colComp F t0 t1 y ↔ ∀ t ∈ Icc t0 t1, HasDerivWithinAt y (F t (y t)) (Icc t0 t1) t := by
  constructor
  · intro h t ht
    exact hasDerivWithinAt_pi.2 fun a => hasDerivWithinAt_pi.2 fun i => hasDerivWithinAt_pi.2 fun w => h t ht (a, i, w)
  · intro h t ht a
    exact hasDerivWithinAt_pi.1 (hasDerivWithinAt_pi.1 (hasDerivWithinAt_pi.1 (h t ht) a.1) a.2.1) a.2.2

/-- C209. Two exact solutions of a column, under one continuous influent, that start in one state are the same, as long
as one of them stays where the formulas are regular. -/
theorem c209_unique (m : ColModel) (P : ColParams r p z) (tH : ℝ) {cin : ℝ → Fin (p + 1) → ℝ} {t0 t1 : ℝ}
    (hc : ContinuousOn cin (Icc t0 t1)) {y1 y2 : ℝ → ColState r p z}
    (h1 : Spec.Solves colComp (fun t u => m.rhs P tH (cin t) u) t0 t1 y1)
    (h2 : Spec.Solves colComp (fun t u => m.rhs P tH (cin t) u) t0 t1 y2) (h0 : y1 t0 = y2 t0)
    (hreg : ∀ t ∈ Ico t0 t1, m.Regular P (cin t) (y1 t)) : ∀ t ∈ Icc t0 t1, y1 t = y2 t :=
  unique_of_contDiff (F := fun x => m.rhs P tH x.1 x.2) hc (solves_col.1 h1) (solves_col.1 h2) h0
    (fun t ht => rhs_smooth m P tH (cin t, y1 t) (hreg t ht))

theorem regular_congr (m : ColModel) (P : ColParams r p z) {cin : Fin (p + 1) → ℝ} {u v : ColState r p z}
    (h : ∀ a i w, a ≠ 0 ∨ w ≠ 0 → u a i w = v a i w) (hu : m.Regular P cin u) : m.Regular P cin v := by
  have hb : ∀ (k : Fin (r + 1)) i w, v k.succ i w = u k.succ i w :=
    fun k i w => (h _ i w (Or.inl (Fin.succ_ne_zero k))).symm
  have ht : ∀ w : Fin (z + 1), (if w = 0 then ∑ i, cin i else ∑ i, v 0 i w) = if w = 0 then ∑ i, cin i else ∑ i, u 0 i w := by
    intro w
    split
    · rfl
    · exact Finset.sum_congr rfl fun i _ => (h 0 i w (Or.inr ‹_›)).symm
  cases m
  · intro w
    rw [ht]
    simpa only [← Fin.succ_last, hb] using hu w
  · intro k w
    rw [ht]
    simpa only [hb] using hu k w

/-- What is stored at the inlet makes no difference either. -/
theorem c209_inlet (m : ColModel) (P : ColParams r p z) (tH : ℝ) {cin : ℝ → Fin (p + 1) → ℝ} {t0 t1 : ℝ}
    (hc : ContinuousOn cin (Icc t0 t1)) {y1 y2 : ℝ → ColState r p z}
    (h1 : Spec.Solves colComp (fun t u => m.rhs P tH (cin t) u) t0 t1 y1)
    (h2 : Spec.Solves colComp (fun t u => m.rhs P tH (cin t) u) t0 t1 y2)
    (h0 : ∀ a i w, a ≠ 0 ∨ w ≠ 0 → y1 t0 a i w = y2 t0 a i w)
    (hreg : ∀ t ∈ Ico t0 t1, m.Regular P (cin t) (y1 t)) :
    ∀ t ∈ Icc t0 t1, ∀ a i w, a ≠ 0 ∨ w ≠ 0 → y1 t a i w = y2 t a i w := by
  have hs : ∀ y, Spec.Solves colComp (fun t u => m.rhs P tH (cin t) u) t0 t1 y →
      Spec.Solves colComp (fun t u => m.rhs P tH (cin t) u) t0 t1 (fun t => setInlet (y t) 0) := by
    intro y hy t ht a
    obtain ⟨a, i, w⟩ := a
    have := hy t ht (a, i, w)
    unfold colComp at this ⊢
    simp only at this ⊢
    rw [rhs_setInlet]
    by_cases haw : a = 0 ∧ w = 0
    · obtain ⟨rfl, rfl⟩ := haw
      rw [rhs_inlet]
      simp only [setInlet]
      exact hasDerivWithinAt_const _ _ _
    · simpa only [setInlet, if_neg haw] using this
  have hr : ∀ t ∈ Ico t0 t1, m.Regular P (cin t) (setInlet (y1 t) 0) := by
    intro t ht
    refine regular_congr m P (fun a i w haw => ?_) (hreg t ht)
    have hn : ¬ (a = 0 ∧ w = 0) := by tauto
    simp only [setInlet, if_neg hn]
  have key := c209_unique m P tH hc (hs y1 h1) (hs y2 h2) (by
    funext a i w
    by_cases haw : a = 0 ∧ w = 0
    · simp only [setInlet, if_pos haw]
    · simp only [setInlet, if_neg haw]
      exact h0 a i w (by tauto)) hr
  intro t ht a i w haw
  have := congrFun (congrFun (congrFun (key t ht) a) i) w
  have hn : ¬ (a = 0 ∧ w = 0) := by tauto
  simpa only [setInlet, if_neg hn] using this

/-- C209. From every regular state, under every continuous influent, a column has an exact solution for some time. -/
theorem c209_exists (m : ColModel) (P : ColParams r p z) (tH : ℝ) {cin : ℝ → Fin (p + 1) → ℝ} {t0 t1 : ℝ} (h01 : t0 < t1)
    (hc : ContinuousOn cin (Icc t0 t1)) {u : ColState r p z} (hreg : m.Regular P (cin t0) u) :
    ∃ t2, t0 < t2 ∧ t2 ≤ t1 ∧ ∃ y, y t0 = u ∧ Spec.Solves colComp (fun t u => m.rhs P tH (cin t) u) t0 t2 y := by
  obtain ⟨t2, h1, h2, y, hy0, hy⟩ := exists_of_contDiff (F := fun x => m.rhs P tH x.1 x.2) (x := u) h01 hc
    (rhs_smooth m P tH (cin t0, u) hreg)
  exact ⟨t2, h1, h2, y, hy0, solves_col.2 hy⟩

/-- C209 with C136. A run continued from a stored state, with the rest of the influent and whatever time scale that gives,
can only be the rest of the run that was stopped. -/
theorem c209_restart (m : ColModel) (P : ColParams r p z) {tH tH' : ℝ} (h : 0 < tH) (h' : 0 < tH')
    {cin : ℝ → Fin (p + 1) → ℝ} (hc : Continuous cin) {T1 s : ℝ} (hs : 0 ≤ s) {Y Z : ℝ → ColState r p z}
    (hY : Spec.Solves colComp (fun T u => m.rhs P tH (cin (T * tH)) u) 0 T1 Y)
    (hreg : ∀ T ∈ Icc 0 T1, m.Regular P (cin (T * tH)) (Y T))
    (hZ : Spec.Solves colComp (fun T u => m.rhs P tH' (cin (s + T * tH')) u) 0 ((T1 * tH - s) / tH') Z)
    (hZ0 : Z 0 = colInit P.Q (cin s) (some (Y (s / tH)))) :
    ∀ t ∈ Icc 0 (T1 * tH - s), ∀ a i w, a ≠ 0 ∨ w ≠ 0 → Z (t / tH') a i w = Y ((s + t) / tH) a i w := by
  obtain ⟨V, hV0, hV, hVY⟩ := c136_restart m P h h' cin hs hY
  intro t ht a i w haw
  rw [← hVY t a i w haw]
  symm
  refine c209_inlet m P tH' (cin := fun T => cin (s + T * tH')) (by fun_prop) hV hZ ?_ ?_ (t / tH')
    ⟨div_nonneg ht.1 h'.le, div_le_div_of_nonneg_right ht.2 h'.le⟩ a i w haw
  · intro a i w _
    rw [hV0, hZ0]
  · intro T hT
    have hT2 : T * tH' < T1 * tH - s := (lt_div_iff₀ h').1 hT.2
    have hm : (s + T * tH') / tH ∈ Icc 0 T1 :=
      ⟨div_nonneg (add_nonneg hs (mul_nonneg hT.1 h'.le)) h.le, (div_le_iff₀ h).2 (by linarith)⟩
    have := hreg _ hm
    rw [div_mul_cancel₀ _ h.ne'] at this
    refine regular_congr m P (fun a i w haw => ?_) this
    have := hVY (T * tH') a i w haw
    rw [mul_div_cancel_right₀ _ h'.ne'] at this
    exact this.symm

/-- States a run may reach: loadings that are not negative, some presaturant on every bead, water not negative in total. -/
theorem regular_of (m : ColModel) (P : ColParams r p z) (hK : ∀ i, 0 < P.K i) (hK0 : P.K 0 = 1) (hv : P.val 0 = 1)
    (hE : P.EPOR < 1) {cin : Fin (p + 1) → ℝ} {u : ColState r p z} (hq : ∀ (k : Fin (r + 1)) i w, 0 ≤ u k.succ i w)
    (hq0 : ∀ (k : Fin (r + 1)) w, 0 < u k.succ 0 w) (hcin : 0 ≤ ∑ i, cin i) (hC : ∀ w, 0 ≤ ∑ i, u 0 i w) :
    m.Regular P cin u := by
  have hE' : 0 < 1 - P.EPOR := by linarith
  have hT : ∀ w : Fin (z + 1), 0 ≤ if w = 0 then ∑ i, cin i else ∑ i, u 0 i w := by
    intro w; split
    · exact hcin
    · exact hC w
  cases m
  · intro w
    exact eqRegular_of ⟨hK, hK0, fun i => hq (Fin.last r) i w, hq0 (Fin.last r) w, hv⟩ (hT w)
  · intro k w
    exact eqRegular_of ⟨hK, hK0, fun i => div_nonneg (hq k i w) hE'.le, div_pos (hq0 k w) hE', hv⟩ (hT w)

/-- C209. The column the code starts with: for some time it has an exact solution, and no two. -/
theorem c209_start (m : ColModel) (P : ColParams r p z) (hK : ∀ i, 0 < P.K i) (hK0 : P.K 0 = 1) (hv : P.val 0 = 1)
    (hE : P.EPOR < 1) (hQ : 0 < P.Q) (tH : ℝ) {cin : ℝ → Fin (p + 1) → ℝ} {t1 : ℝ} (h1 : 0 < t1)
    (hc : ContinuousOn cin (Icc 0 t1)) (hpos : 0 ≤ ∑ i, cin 0 i) :
    ∃ t2, 0 < t2 ∧ t2 ≤ t1 ∧ ∃ y, y 0 = colInit P.Q (cin 0) none ∧
      Spec.Solves colComp (fun t u => m.rhs P tH (cin t) u) 0 t2 y := by
  refine c209_exists m P tH h1 hc (regular_of m P hK hK0 hv hE ?_ ?_ hpos ?_)
  · intro k i w
    simp only [colInit, Fin.succ_ne_zero, if_false]
    split
    · exact hQ.le
    · exact le_rfl
  · intro k w
    simp only [colInit, Fin.succ_ne_zero, if_false, if_true]
    exact hQ
  · intro w
    rw [(c33_column (r := r) P.Q (cin 0)).2.1 w]
    exact hpos

/-! ### Batch contactors -/

namespace Spec

/-- The same for the formula of the batch models, which also divides by `aa`. -/
def EqRegularB (K : Fin (p + 1) → ℝ) (val : Fin (p + 1) → ℕ) (q : Fin (p + 1) → ℝ) (CT : ℝ) : Prop :=
  if ∃ i, val i = 2 then q 0 ≠ 0 ∧ 0 < eqBB K val q ^ 2 + 4 * eqAA K val q * CT ∧ eqAA K val q ≠ 0
  else ∀ i, ∑ j, K i / K j * q j ≠ 0

end Spec

/-- Every equilibrium the rates of a batch run use is regular. -/
def BatchModel.Regular (m : BatchModel) (P : BatchParams r p) (u : BatchState r p) : Prop :=
  match m with
  | .hsdm => Spec.EqRegularB P.K P.val (u (Fin.last (r + 1))) (∑ i, P.C0 i)
  | .psdm => ∀ k : Fin (r + 1), Spec.EqRegularB P.K P.val (fun i => u k.succ i / (1 - P.EPOR)) (∑ i, P.C0 i)

/-- The equilibrium of the batch models as one formula. -/
noncomputable def ceqB (K : Fin (p + 1) → ℝ) (val : Fin (p + 1) → ℕ) (q : Fin (p + 1) → ℝ) (CT : ℝ) : Fin (p + 1) → ℝ :=
  if ∃ i, val i = 2 then ceqOfRef K val q ((-eqBB K val q + Real.sqrt (eqBB K val q ^ 2 - 4 * eqAA K val q * -CT)) /
    (2 * eqAA K val q)) else ceqMv K q CT

theorem ceqBatch_some {K : Fin (p + 1) → ℝ} {val : Fin (p + 1) → ℕ} {q C : Fin (p + 1) → ℝ} {CT : ℝ}
    (h : ceqBatch K val q CT = some C) : C = ceqB K val q CT := by
  unfold ceqBatch at h
  unfold ceqB
  split at h
  · rw [if_pos ‹_›]
    unfold refConcBatch at h
    simp only at h
    split at h
    · cases h
    · exact (Option.some.inj h).symm
  · rw [if_neg ‹_›]
    exact (Option.some.inj h).symm

theorem ceqBatch_of {K : Fin (p + 1) → ℝ} {val : Fin (p + 1) → ℕ} {q : Fin (p + 1) → ℝ} {CT : ℝ}
    (h : (∃ i, val i = 2) → eqAA K val q ≠ 0) : ceqBatch K val q CT = some (ceqB K val q CT) := by
  unfold ceqBatch ceqB
  split
  · unfold refConcBatch
    simp only [if_neg (h ‹_›)]
    rfl
  · rfl

theorem ceqB_smooth {K : Fin (p + 1) → ℝ} {val : Fin (p + 1) → ℕ} {X : Type} [NormedAddCommGroup X] [NormedSpace ℝ X]
    {Q : X → Fin (p + 1) → ℝ} {CT : ℝ} {x : X} (hQ : ∀ i, ContDiffAt ℝ 1 (fun x => Q x i) x)
    (h : Spec.EqRegularB K val (Q x) CT) (i : Fin (p + 1)) :
    ContDiffAt ℝ 1 (fun x => ceqB K val (Q x) CT i) x := by
  unfold Spec.EqRegularB at h
  unfold ceqB
  by_cases hdv : ∃ i, val i = 2
  · rw [if_pos hdv] at h
    obtain ⟨h0, h1, h2⟩ := h
    simp only [if_pos hdv]
    refine ceqOfRef_smooth hQ h0 ?_ i
    have ha := eqAA_smooth (K := K) (val := val) hQ h0
    have hb := eqBB_smooth (K := K) (val := val) hQ h0
    refine (hb.neg.add (ContDiffAt.sqrt ?_ ?_)).div (contDiffAt_const.mul ha) ?_
    · exact (hb.pow 2).sub ((contDiffAt_const.mul ha).mul contDiffAt_const)
    · have e : eqBB K val (Q x) ^ 2 - 4 * eqAA K val (Q x) * -CT = eqBB K val (Q x) ^ 2 + 4 * eqAA K val (Q x) * CT := by
        ring
      rw [e]; exact h1.ne'
    · exact mul_ne_zero two_ne_zero h2
  · rw [if_neg hdv] at h
    simp only [if_neg hdv]
    exact ceqMv_smooth hQ contDiffAt_const i (h i)

/-- The rates of a batch run as one formula. -/
noncomputable def BatchModel.field (m : BatchModel) (P : BatchParams r p) (u : BatchState r p) : BatchState r p :=
  match m with
  | .hsdm => batchAssemble P (fun i => -P.kL * (u 0 i - ceqB P.K P.val (u (Fin.last (r + 1))) (∑ i, P.C0 i) i))
      (fun k i => P.Ds / P.rb ^ 2 * ∑ l, P.Br k l * u l.succ i)
  | .psdm => batchAssemble P
      (fun i => -P.kL * (u 0 i - ceqB P.K P.val (fun i => u (Fin.last r).succ i / (1 - P.EPOR)) (∑ i, P.C0 i) i))
      (fun k i => (P.EPOR * (P.Dp - P.Ds) *
        (∑ l, P.Br k l * ceqB P.K P.val (fun i => u (Fin.succ l) i / (1 - P.EPOR)) (∑ i, P.C0 i) i) +
        P.Ds * ∑ l, P.Br k l * u l.succ i) / P.rb ^ 2)

theorem field_of_rhs (m : BatchModel) (P : BatchParams r p) {u d : BatchState r p} (h : m.rhs P u = some d) :
    d = m.field P u := by
  cases m
  · simp only [BatchModel.rhs, hsdmBatchRhs, Option.map_eq_some_iff] at h
    obtain ⟨C, hC, rfl⟩ := h
    rw [ceqBatch_some hC]
    rfl
  · simp only [BatchModel.rhs, psdmBatchRhs] at h
    split at h
    · rename_i hs
      rw [← Option.some.inj h]
      have e : ∀ k : Fin (r + 1), (ceqBatch P.K P.val (fun i => u k.succ i / (1 - P.EPOR)) (∑ i, P.C0 i)).get (hs k) =
          ceqB P.K P.val (fun i => u k.succ i / (1 - P.EPOR)) (∑ i, P.C0 i) :=
        fun k => ceqBatch_some (Option.some_get _).symm
      simp only [e]
      rfl
    · cases h

/-- The rates exist where no equilibrium divides by zero. -/
theorem rhs_field (m : BatchModel) (P : BatchParams r p) {u : BatchState r p}
    (h : match m with
      | .hsdm => (∃ i, P.val i = 2) → eqAA P.K P.val (u (Fin.last (r + 1))) ≠ 0
      | .psdm => ∀ k : Fin (r + 1), (∃ i, P.val i = 2) → eqAA P.K P.val (fun i => u k.succ i / (1 - P.EPOR)) ≠ 0) :
    m.rhs P u = some (m.field P u) := by
  have : ∃ d, m.rhs P u = some d := by
    cases m
    · exact ⟨_, by simp only [BatchModel.rhs, hsdmBatchRhs]; rw [ceqBatch_of h]; rfl⟩
    · simp only [BatchModel.rhs, psdmBatchRhs]
      rw [dif_pos (fun k => by rw [ceqBatch_of (h k)]; rfl)]
      exact ⟨_, rfl⟩
  obtain ⟨d, hd⟩ := this
  rw [hd, field_of_rhs m P hd]

theorem batchAssemble_smooth (P : BatchParams r p) {X : Type} [NormedAddCommGroup X] [NormedSpace ℝ X]
    {J : X → Fin (p + 1) → ℝ} {dq : X → Fin (r + 1) → Fin (p + 1) → ℝ} {x : X}
    (hJ : ∀ i, ContDiffAt ℝ 1 (fun x => J x i) x) (hq : ∀ k i, ContDiffAt ℝ 1 (fun x => dq x k i) x) :
    ContDiffAt ℝ 1 (fun x => batchAssemble P (J x) (dq x)) x := by
  refine contDiffAt_pi.2 fun a => contDiffAt_pi.2 fun i => ?_
  unfold batchAssemble
  refine Fin.cases ?_ (fun k => ?_) a
  · exact (contDiffAt_const.mul (hJ i)).div_const _
  · simp only [Fin.cases_succ]
    split
    · have h1 : ContDiffAt ℝ 1 (fun x => ∑ k' : Fin r, P.Wr k'.castSucc * dq x k'.castSucc i) x :=
        ContDiffAt.sum fun k' _ => contDiffAt_const.mul (hq k'.castSucc i)
      have h2 : ContDiffAt ℝ 1 (fun x => -J x i / P.rb) x := (hJ i).neg.div_const _
      exact (h2.sub h1).div_const _
    · exact hq k i

theorem field_smooth (m : BatchModel) (P : BatchParams r p) (u : BatchState r p) (h : m.Regular P u) :
    ContDiffAt ℝ 1 (m.field P) u := by
  have hu : ∀ a i, ContDiffAt ℝ 1 (fun u : BatchState r p => u a i) u := by
    intro a i
    have : ContDiff ℝ 1 (fun u : BatchState r p => u a i) := by fun_prop
    exact this.contDiffAt
  cases m
  · refine batchAssemble_smooth P (fun i => ?_) (fun k i => ?_)
    · exact contDiffAt_const.mul ((hu 0 i).sub (ceqB_smooth (fun i => hu _ i) h i))
    · exact contDiffAt_const.mul (ContDiffAt.sum fun l _ => contDiffAt_const.mul (hu _ i))
  · have hc : ∀ k : Fin (r + 1), ∀ i, ContDiffAt ℝ 1 (fun u : BatchState r p =>
        ceqB P.K P.val (fun i => u k.succ i / (1 - P.EPOR)) (∑ i, P.C0 i) i) u :=
      fun k i => ceqB_smooth (fun i => (hu _ i).div_const _) (h k) i
    refine batchAssemble_smooth P (fun i => ?_) (fun k i => ?_)
    · exact contDiffAt_const.mul ((hu 0 i).sub (hc _ i))
    · exact ContDiffAt.div_const ((contDiffAt_const.mul (ContDiffAt.sum fun l _ => contDiffAt_const.mul (hc l i))).add
        (contDiffAt_const.mul (ContDiffAt.sum fun l _ => contDiffAt_const.mul (hu _ i)))) _

/-- `y` is an exact batch run on `[t0, t1]`: the rates exist all along and are the derivatives. -/
def BatchModel.Runs (m : BatchModel) (P : BatchParams r p) (t0 t1 : ℝ) (y : ℝ → BatchState r p) : Prop :=
  ∀ t ∈ Icc t0 t1, ∃ d, m.rhs P (y t) = some d ∧ ∀ a i, HasDerivWithinAt (fun t => y t a i) (d a i) (Icc t0 t1) t

theorem runs_field {m : BatchModel} {P : BatchParams r p} {t0 t1 : ℝ} {y : ℝ → BatchState r p} (h : m.Runs P t0 t1 y) :
    ∀ t ∈ Icc t0 t1, HasDerivWithinAt y (m.field P (y t)) (Icc t0 t1) t := by
  intro t ht
  obtain ⟨d, hd, hy⟩ := h t ht
  rw [← field_of_rhs m P hd]
  exact hasDerivWithinAt_pi.2 fun a => hasDerivWithinAt_pi.2 fun i => hy a i

/-- C209. Two exact batch runs that start in one state are the same, as long as one of them stays where the formulas are
regular. -/
theorem c209_batch_unique (m : BatchModel) (P : BatchParams r p) {t0 t1 : ℝ} {y1 y2 : ℝ → BatchState r p}
    (h1 : m.Runs P t0 t1 y1) (h2 : m.Runs P t0 t1 y2) (h0 : y1 t0 = y2 t0)
    (hreg : ∀ t ∈ Ico t0 t1, m.Regular P (y1 t)) : ∀ t ∈ Icc t0 t1, y1 t = y2 t :=
  unique_of_contDiff (G := ℝ) (c := fun _ => 0) (F := fun x => m.field P x.2) continuousOn_const (runs_field h1)
    (runs_field h2) h0 (fun t ht => (field_smooth m P (y1 t) (hreg t ht)).comp (0, y1 t) contDiffAt_snd)

/-- C209. From every regular state a batch run has an exact solution for some time. -/
theorem c209_batch_exists (m : BatchModel) (P : BatchParams r p) {t0 t1 : ℝ} (h01 : t0 < t1) {u : BatchState r p}
    (hreg : m.Regular P u) : ∃ t2, t0 < t2 ∧ t2 ≤ t1 ∧ ∃ y, y t0 = u ∧ m.Runs P t0 t2 y := by
  obtain ⟨d, h1, h2, y, hy0, hy⟩ := exists_of_contDiff (G := ℝ) (c := fun _ => 0) (F := fun x => m.field P x.2) (x := u) h01
    continuousOn_const ((field_smooth m P u hreg).comp ((0 : ℝ), u) contDiffAt_snd)
  have hcont : ContinuousWithinAt y (Icc t0 d) t0 := (hy t0 ⟨le_rfl, h1.le⟩).continuousWithinAt
  have haa : ∀ (g : BatchState r p → Fin (p + 1) → ℝ), (∀ i, ContDiffAt ℝ 1 (fun u => g u i) u) →
      Spec.EqRegularB P.K P.val (g u) (∑ i, P.C0 i) →
      ∀ᶠ t in nhdsWithin t0 (Icc t0 d), (∃ i, P.val i = 2) → eqAA P.K P.val (g (y t)) ≠ 0 := by
    intro g hg hr
    by_cases hdv : ∃ i, P.val i = 2
    · unfold Spec.EqRegularB at hr
      rw [if_pos hdv] at hr
      have h3 : ContinuousAt (fun u => eqAA P.K P.val (g u)) (y t0) := by
        rw [hy0]; exact (eqAA_smooth hg hr.1).continuousAt
      have h4 := h3.comp_continuousWithinAt hcont
      have h5 : eqAA P.K P.val (g (y t0)) ≠ 0 := by rw [hy0]; exact hr.2.2
      filter_upwards [h4.eventually_ne h5] with t ht _ using ht
    · exact Filter.Eventually.of_forall fun t h => absurd h hdv
  have hu : ∀ a i, ContDiffAt ℝ 1 (fun u : BatchState r p => u a i) u := by
    intro a i
    have : ContDiff ℝ 1 (fun u : BatchState r p => u a i) := by fun_prop
    exact this.contDiffAt
  have hev : ∀ᶠ t in nhdsWithin t0 (Icc t0 d), m.rhs P (y t) = some (m.field P (y t)) := by
    cases m
    · filter_upwards [haa (fun u => u (Fin.last (r + 1))) (fun i => hu _ i) hreg] with t ht
      exact rhs_field .hsdm P ht
    · have := fun k : Fin (r + 1) => haa (fun u i => u k.succ i / (1 - P.EPOR)) (fun i => (hu _ i).div_const _) (hreg k)
      filter_upwards [Filter.eventually_all.2 this] with t ht
      exact rhs_field .psdm P ht
  obtain ⟨ε, hε, hball⟩ := Metric.mem_nhdsWithin_iff.1 hev
  refine ⟨min (t0 + ε / 2) d, lt_min (by linarith) h1, (min_le_right _ _).trans h2, y, hy0, fun t ht => ?_⟩
  have hsub : Icc t0 (min (t0 + ε / 2) d) ⊆ Icc t0 d := Icc_subset_Icc_right (min_le_right _ _)
  refine ⟨m.field P (y t), hball ⟨?_, hsub ht⟩, fun a i => ?_⟩
  · rw [Metric.mem_ball, Real.dist_eq, abs_lt]
    have := ht.2.trans (min_le_left _ _)
    constructor <;> [have := ht.1; skip] <;> linarith
  · exact hasDerivWithinAt_pi.1 (hasDerivWithinAt_pi.1 ((hy t (hsub ht)).mono hsub) a) i

theorem eqRegularB_of {K : Fin (p + 1) → ℝ} {val : Fin (p + 1) → ℕ} {q : Fin (p + 1) → ℝ} {CT : ℝ} (h : DvOk K val q)
    (hCT : 0 ≤ CT) (hd : (∃ i, val i = 2) → ∃ i, val i = 2 ∧ q i ≠ 0) : Spec.EqRegularB K val q CT := by
  have hr := eqRegular_of h hCT
  unfold Spec.EqRegular at hr
  unfold Spec.EqRegularB
  split
  · rename_i hdv
    rw [if_pos hdv] at hr
    refine ⟨hr.1, hr.2.1, ?_⟩
    obtain ⟨i, hi, hqi⟩ := hd hdv
    unfold eqAA
    refine div_ne_zero (ne_of_gt ?_) (pow_ne_zero _ h.qref.ne')
    refine Finset.sum_pos' (fun j _ => ?_) ⟨i, Finset.mem_univ _, ?_⟩
    · split
      · exact div_nonneg (h.qnonneg j) (h.Kpos j).le
      · exact le_rfl
    · rw [if_pos hi]
      exact div_pos (lt_of_le_of_ne (h.qnonneg i) (Ne.symm hqi)) (h.Kpos i)
  · rename_i hdv
    rwa [if_neg hdv] at hr

/-- The loadings the code starts with, with fewer than a thousand divalent ions. -/
theorem batchInit_ok (P : BatchParams r p) (hK : ∀ i, 0 < P.K i) (hK0 : P.K 0 = 1) (hv : P.val 0 = 1)
    (hQ : 0 < P.RHOP * P.Qm) (hn : (Finset.univ.filter (fun j => P.val j = 2)).card < 1000) (k : Fin (r + 1)) :
    DvOk P.K P.val (batchInit P k.succ) ∧ ((∃ i, P.val i = 2) → ∃ i, P.val i = 2 ∧ batchInit P k.succ i ≠ 0) := by
  have hn' : ((Finset.univ.filter (fun j => P.val j = 2)).card : ℝ) < 1000 := by exact_mod_cast hn
  by_cases hdv : ∃ i, P.val i = 2
  · have h0 : 0 < P.RHOP * P.Qm - ((Finset.univ.filter (fun j => P.val j = 2)).card : ℝ) * (P.RHOP * P.Qm) / 1e3 := by
      norm_num
      nlinarith
    have e : ∀ i, batchInit P k.succ i = if i = 0 then
        P.RHOP * P.Qm - ((Finset.univ.filter (fun j => P.val j = 2)).card : ℝ) * (P.RHOP * P.Qm) / 1e3
        else if P.val i = 2 then P.RHOP * P.Qm / 1e3 else 0 := by
      intro i
      simp only [batchInit, Fin.succ_ne_zero, if_false, if_pos hdv]
    refine ⟨⟨hK, hK0, fun i => ?_, ?_, hv⟩, fun _ => ?_⟩
    · rw [e]
      split_ifs
      · exact h0.le
      · positivity
      · exact le_rfl
    · rw [e, if_pos rfl]; exact h0
    · obtain ⟨i, hi⟩ := hdv
      refine ⟨i, hi, ?_⟩
      have : i ≠ 0 := by rintro rfl; omega
      rw [e, if_neg this, if_pos hi]
      positivity
  · have e : ∀ i, batchInit P k.succ i = if i = 0 then P.RHOP * P.Qm else 0 := by
      intro i
      simp only [batchInit, Fin.succ_ne_zero, if_false, if_neg hdv]
    refine ⟨⟨hK, hK0, fun i => ?_, ?_, hv⟩, fun h => absurd h hdv⟩
    · rw [e]
      split_ifs
      · exact hQ.le
      · exact le_rfl
    · rw [e, if_pos rfl]; exact hQ

/-- The state the code starts with is regular. -/
theorem batch_start_regular (m : BatchModel) (P : BatchParams r p) (hK : ∀ i, 0 < P.K i) (hK0 : P.K 0 = 1)
    (hv : P.val 0 = 1) (hE : P.EPOR < 1) (hQ : 0 < P.RHOP * P.Qm) (hC : 0 ≤ ∑ i, P.C0 i)
    (hn : (Finset.univ.filter (fun j => P.val j = 2)).card < 1000) : m.Regular P (batchInit P) := by
  have hE' : 0 < 1 - P.EPOR := by linarith
  have hpos := batchInit_ok (r := r) P hK hK0 hv hQ hn
  cases m
  · have := hpos (Fin.last r)
    exact eqRegularB_of this.1 hC this.2
  · intro k
    obtain ⟨h2, h3⟩ := hpos k
    refine eqRegularB_of ⟨h2.Kpos, h2.Kref, fun i => div_nonneg (h2.qnonneg i) hE'.le, div_pos h2.qref hE', h2.valRef⟩ hC ?_
    intro hdv
    obtain ⟨i, hi, hne⟩ := h3 hdv
    exact ⟨i, hi, div_ne_zero hne hE'.ne'⟩

/-- C209. The contactor the code starts with, with fewer than a thousand divalent ions: for some time it has an exact
solution, and no two. -/
theorem c209_batch_start (m : BatchModel) (P : BatchParams r p) (hK : ∀ i, 0 < P.K i) (hK0 : P.K 0 = 1)
    (hv : P.val 0 = 1) (hE : P.EPOR < 1) (hQ : 0 < P.RHOP * P.Qm) (hC : 0 ≤ ∑ i, P.C0 i)
    (hn : (Finset.univ.filter (fun j => P.val j = 2)).card < 1000) {t1 : ℝ} (h1 : 0 < t1) :
    ∃ t2, 0 < t2 ∧ t2 ≤ t1 ∧ ∃ y, y 0 = batchInit P ∧ m.Runs P 0 t2 y :=
  c209_batch_exists m P h1 (batch_start_regular m P hK hK0 hv hE hQ hC hn)

/-- A column with a divalent ion that has an exact solution for a while. -/
example (m : ColModel) : ∃ t2 : ℝ, 0 < t2 ∧ t2 ≤ 5 ∧ ∃ y, y 0 = colInit 2 (fun _ => 1) none ∧
    Spec.Solves colComp (fun t u => m.rhs (r := 0) (p := 1) (z := 1)
      ⟨1 / 2, 1, 1, 1, 2, 1 / 4, ![1, 1], ![1, 1], ![2, 2], ![1, 3], ![1, 2], ![![-1, 1], ![-1, 1]], 0, ![1]⟩ 7
      ((fun _ _ => 1) t) u) 0 t2 y := by
  refine c209_start m ⟨1 / 2, 1, 1, 1, 2, 1 / 4, ![1, 1], ![1, 1], ![2, 2], ![1, 3], ![1, 2], ![![-1, 1], ![-1, 1]], 0, ![1]⟩
    (fun i => ?_) rfl rfl (by norm_num) (by norm_num) 7 (by norm_num) continuousOn_const (by norm_num)
  fin_cases i <;> norm_num

/-- A contactor with a divalent ion. -/
example (m : BatchModel) : ∃ t2 : ℝ, 0 < t2 ∧ t2 ≤ 5 ∧ ∃ y : ℝ → BatchState 0 1,
    m.Runs ⟨2, 3, 1 / 4, 1, 1, 1, 2, 1, 1, ![1, 1], ![1, 3], ![1, 2], 0, ![1]⟩ 0 t2 y := by
  obtain ⟨t2, h1, h2, y, -, hy⟩ := c209_batch_start m (r := 0) (p := 1)
    ⟨2, 3, 1 / 4, 1, 1, 1, 2, 1, 1, ![1, 1], ![1, 3], ![1, 2], 0, ![1]⟩ (fun i => by fin_cases i <;> norm_num) rfl rfl
    (by norm_num) (by norm_num) (Finset.sum_nonneg fun i _ => by fin_cases i <;> norm_num)
    (lt_of_le_of_lt (Finset.card_le_univ _) (by norm_num)) (t1 := 5) (by norm_num)
  exact ⟨t2, h1, h2, y, hy⟩

end WTM
