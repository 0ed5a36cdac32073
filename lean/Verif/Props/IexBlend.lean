import Mathlib.Tactic
import Verif.Props.IexUnique

/-! Property C241: without selectivity the effluent of a blend of two waters is the blend of the effluents. -/
set_option autoImplicit false
namespace WTM
open BigOperators Set

section
variable {r p z : ℕ}

/-- Shares `s` of the one and `t` of the other. -/
def Spec.blend (s t : ℝ) (f g : Fin (p + 1) → ℝ) : Fin (p + 1) → ℝ := fun i => s * f i + t * g i

/-- The same for whole column states. -/
def Spec.blendState (s t : ℝ) (u v : ColState r p z) : ColState r p z := fun a i w => s * u a i w + t * v a i w

theorem blend_sum (s t : ℝ) (f g : Fin (p + 1) → ℝ) : ∑ i, (s * f i + t * g i) = s * ∑ i, f i + t * ∑ i, g i := by
  rw [Finset.sum_add_distrib, ← Finset.mul_sum, ← Finset.mul_sum]

theorem blend_lin {ι : Type} [Fintype ι] (s t : ℝ) (b f g : ι → ℝ) :
    ∑ l, b l * (s * f l + t * g l) = s * (∑ l, b l * f l) + t * ∑ l, b l * g l := by
  rw [Finset.mul_sum, Finset.mul_sum, ← Finset.sum_add_distrib]
  exact Finset.sum_congr rfl fun l _ => by ring

theorem blend_implicit (s t : ℝ) {f g h : Fin (p + 1) → ℝ} (e : ∀ i, h i = s * f i + t * g i) (i : Fin (p + 1)) :
    implicitRef h i = s * implicitRef f i + t * implicitRef g i := by
  unfold implicitRef
  split
  · simp only [e]
    rw [Finset.sum_add_distrib, ← Finset.mul_sum, ← Finset.mul_sum]
    ring
  · exact e i

/-- Without selectivity the equilibrium at a given total loading is linear. -/
theorem blend_ceq {K : Fin (p + 1) → ℝ} {val : Fin (p + 1) → ℕ} (hK : ∀ i, K i = 1) (hv : ∀ i, val i ≠ 2) {s t : ℝ} (hst : s + t = 1)
    {q q' : Fin (p + 1) → ℝ} (hq : ∑ i, q' i = ∑ i, q i) (CT : ℝ) (i : Fin (p + 1)) :
    ceq K val (fun i => s * q i + t * q' i) CT i = s * ceq K val q CT i + t * ceq K val q' CT i := by
  have h2 : ¬ ∃ i, val i = 2 := fun ⟨i, hi⟩ => hv i hi
  unfold ceq
  simp only [if_neg h2]
  unfold ceqMv alphaMat
  simp only [hK, div_one, one_mul]
  rw [blend_sum, hq, ← add_mul, hst, one_mul]
  ring

/-- C241. Without selectivity, and with the same totals, the rates of a blend are the blend of the rates, in both column models. -/
theorem c241_rates (m : ColModel) (P : ColParams r p z) (tH : ℝ) (hK : ∀ i, P.K i = 1) (hv : ∀ i, P.val i ≠ 2) {s t : ℝ} (hst : s + t = 1)
    {cin cin' : Fin (p + 1) → ℝ} {u u' : ColState r p z} (hc : ∑ i, cin' i = ∑ i, cin i)
    (hl : ∀ w, w ≠ 0 → ∑ i, u' 0 i w = ∑ i, u 0 i w) (hr : ∀ (k : Fin (r + 1)) w, ∑ i, u' k.succ i w = ∑ i, u k.succ i w) :
    m.rhs P tH (Spec.blend s t cin cin') (Spec.blendState s t u u') =
      Spec.blendState s t (m.rhs P tH cin u) (m.rhs P tH cin' u') := by
  have hin : ∀ a i w, setInlet (Spec.blendState s t u u') (Spec.blend s t cin cin') a i w =
      s * setInlet u cin a i w + t * setInlet u' cin' a i w := by
    intro a i w
    unfold setInlet
    split <;> rfl
  have hC' : ∀ w, ∑ i, setInlet u' cin' 0 i w = ∑ i, setInlet u cin 0 i w := by
    intro w
    rw [setInlet_total, setInlet_total]
    split
    · exact hc
    · exact hl w ‹_›
  have hCT : ∀ w, ∑ i, setInlet (Spec.blendState s t u u') (Spec.blend s t cin cin') 0 i w = ∑ i, setInlet u cin 0 i w := by
    intro w
    simp only [hin]
    rw [blend_sum, hC', ← add_mul, hst, one_mul]
  have hb : ∀ (k : Fin (r + 1)) w, ∑ i, setInlet u' cin' k.succ i w = ∑ i, setInlet u cin k.succ i w := by
    intro k w
    simp only [setInlet_bead]
    exact hr k w
  have hload : ∀ a i w, m.load P (setInlet (Spec.blendState s t u u') (Spec.blend s t cin cin') a i w) =
      s * m.load P (setInlet u cin a i w) + t * m.load P (setInlet u' cin' a i w) := by
    intro a i w
    rw [hin]
    cases m
    · rfl
    · show (s * _ + t * _) / (1 - P.EPOR) = s * (_ / (1 - P.EPOR)) + t * (_ / (1 - P.EPOR))
      ring
  have hlsum : ∀ (k : Fin (r + 1)) w, ∑ i, m.load P (setInlet u' cin' k.succ i w) = ∑ i, m.load P (setInlet u cin k.succ i w) := by
    intro k w
    cases m
    · exact hb k w
    · show ∑ i, setInlet u' cin' k.succ i w / (1 - P.EPOR) = ∑ i, setInlet u cin k.succ i w / (1 - P.EPOR)
      rw [← Finset.sum_div, ← Finset.sum_div, hb]
  have hceq : ∀ (k : Fin (r + 1)) w i,
      ceq P.K P.val (fun i => m.load P (setInlet (Spec.blendState s t u u') (Spec.blend s t cin cin') k.succ i w))
        (∑ i, setInlet (Spec.blendState s t u u') (Spec.blend s t cin cin') 0 i w) i =
      s * ceq P.K P.val (fun i => m.load P (setInlet u cin k.succ i w)) (∑ i, setInlet u cin 0 i w) i +
      t * ceq P.K P.val (fun i => m.load P (setInlet u' cin' k.succ i w)) (∑ i, setInlet u' cin' 0 i w) i := by
    intro k w i
    rw [hCT, hC']
    simp only [hload]
    exact blend_ceq hK hv hst (hlsum k w) _ i
  have hflux : ∀ i w, m.flux P (setInlet (Spec.blendState s t u u') (Spec.blend s t cin cin')) i w =
      s * m.flux P (setInlet u cin) i w + t * m.flux P (setInlet u' cin') i w := by
    intro i w
    unfold ColModel.flux fluxJ
    refine blend_implicit s t (fun i => ?_) i
    have := hceq (Fin.last r) w i
    rw [Fin.succ_last] at this
    rw [this]
    beta_reduce
    rw [hin]
    ring
  have hliq : ∀ i w, liqRate P tH (setInlet (Spec.blendState s t u u') (Spec.blend s t cin cin') 0)
      (m.flux P (setInlet (Spec.blendState s t u u') (Spec.blend s t cin cin'))) i w =
      s * liqRate P tH (setInlet u cin 0) (m.flux P (setInlet u cin)) i w +
      t * liqRate P tH (setInlet u' cin' 0) (m.flux P (setInlet u' cin')) i w := by
    intro i w
    unfold liqRate
    rw [hflux]
    simp only [hin]
    rw [blend_lin]
    ring
  have hbead : ∀ k i w, m.bead P tH (setInlet (Spec.blendState s t u u') (Spec.blend s t cin cin')) k i w =
      s * m.bead P tH (setInlet u cin) k i w + t * m.bead P tH (setInlet u' cin') k i w := by
    intro k i w
    cases m
    · show hsdmBead P tH _ k i w = s * hsdmBead P tH _ k i w + t * hsdmBead P tH _ k i w
      unfold hsdmBead
      refine blend_implicit s t (fun i => ?_) i
      simp only [hin]
      rw [blend_lin]
      ring
    · show psdmBead P tH _ k i w = s * psdmBead P tH _ k i w + t * psdmBead P tH _ k i w
      unfold psdmBead
      refine blend_implicit s t (fun i => ?_) i
      have hpore : ∀ l, poreConc P (setInlet (Spec.blendState s t u u') (Spec.blend s t cin cin')) l i w =
          s * poreConc P (setInlet u cin) l i w + t * poreConc P (setInlet u' cin') l i w := fun l => hceq l w i
      simp only [hin, hpore]
      rw [blend_lin, blend_lin]
      ring
  funext a i w
  show _ = s * m.rhs P tH cin u a i w + t * m.rhs P tH cin' u' a i w
  rw [rhs_eq, rhs_eq, rhs_eq]
  refine Fin.cases ?_ (fun k => ?_) a
  · simp only [assemble_liq]
    by_cases hw : w = 0
    · simp [hw]
    · simp only [if_neg hw]
      exact hliq i w
  · simp only [assemble_bead]
    by_cases hk : k = Fin.last r
    · simp only [if_pos hk]
      rw [hflux]
      simp only [hbead]
      rw [blend_lin]
      ring
    · simp only [if_neg hk]
      exact hbead k i w

/-- Along two runs with the same total influent the totals stay equal if they were. -/
theorem totals_follow (m : ColModel) (P : ColParams r p z) (tH : ℝ) {cin cin' : ℝ → Fin (p + 1) → ℝ} {t0 t1 : ℝ}
    (hc : ∀ t ∈ Icc t0 t1, ∑ i, cin' t i = ∑ i, cin t i) {y y' : ℝ → ColState r p z}
    (hy : Spec.Solves colComp (fun t u => m.rhs P tH (cin t) u) t0 t1 y)
    (hy' : Spec.Solves colComp (fun t u => m.rhs P tH (cin' t) u) t0 t1 y')
    (h0 : ∀ w, w ≠ 0 → ∑ i, y' t0 0 i w = ∑ i, y t0 0 i w) :
    ∀ t ∈ Icc t0 t1, ∀ w, w ≠ 0 → ∑ i, y' t 0 i w = ∑ i, y t 0 i w := by
  let M : (Fin (z + 1) → ℝ) → Fin (z + 1) → ℝ :=
    fun d w => if w = 0 then 0 else -P.v / P.L * (∑ w', P.Az w w' * (if w' = 0 then 0 else d w')) / P.EBED * tH
  have hder : ∀ t ∈ Icc t0 t1, HasDerivWithinAt (fun t w => if w = 0 then 0 else ∑ i, y' t 0 i w - ∑ i, y t 0 i w)
      (M (fun w => if w = 0 then 0 else ∑ i, y' t 0 i w - ∑ i, y t 0 i w)) (Icc t0 t1) t := by
    intro t ht
    refine hasDerivWithinAt_pi.2 fun w => ?_
    by_cases hw : w = 0
    · simp only [M, if_pos hw]
      exact hasDerivWithinAt_const _ _ _
    · simp only [M, if_neg hw]
      have d1 : HasDerivWithinAt (fun t => ∑ i, y t 0 i w) (∑ i, m.rhs P tH (cin t) (y t) 0 i w) (Icc t0 t1) t :=
        HasDerivWithinAt.fun_sum fun i _ => hy t ht (0, i, w)
      have d2 : HasDerivWithinAt (fun t => ∑ i, y' t 0 i w) (∑ i, m.rhs P tH (cin' t) (y' t) 0 i w) (Icc t0 t1) t :=
        HasDerivWithinAt.fun_sum fun i _ => hy' t ht (0, i, w)
      refine (d2.sub d1).congr_deriv ?_
      rw [c30_advection_only m P tH _ _ hw, c30_advection_only m P tH _ _ hw]
      have : ∑ w', P.Az w w' * (if w' = 0 then 0 else if w' = 0 then 0 else ∑ i, y' t 0 i w' - ∑ i, y t 0 i w') =
          ∑ w', P.Az w w' * ∑ i, setInlet (y' t) (cin' t) 0 i w' - ∑ w', P.Az w w' * ∑ i, setInlet (y t) (cin t) 0 i w' := by
        rw [← Finset.sum_sub_distrib]
        refine Finset.sum_congr rfl fun w' _ => ?_
        rw [setInlet_total, setInlet_total]
        by_cases h' : w' = 0
        · simp only [if_pos h', hc t ht]
          ring
        · simp only [if_neg h']
          ring
      rw [this]
      ring
  have hz : ∀ t ∈ Icc t0 t1, HasDerivWithinAt (fun _ : ℝ => (fun _ => 0 : Fin (z + 1) → ℝ)) (M (fun _ => 0)) (Icc t0 t1) t := by
    intro t _
    have : M (fun _ => 0) = 0 := by
      funext w
      simp [M]
    rw [this]
    exact hasDerivWithinAt_const _ _ _
  have hM : ContDiff ℝ 1 (fun x : ℝ × (Fin (z + 1) → ℝ) => M x.2) := by
    refine contDiff_pi.2 fun w => ?_
    by_cases hw : w = 0
    · simp only [M, if_pos hw]
      exact contDiff_const
    · simp only [M, if_neg hw]
      refine ((contDiff_const.mul (ContDiff.sum fun w' _ => contDiff_const.mul ?_)).div_const _).mul contDiff_const
      by_cases h' : w' = 0
      · simp only [if_pos h']
        exact contDiff_const
      · simp only [if_neg h']
        fun_prop
  have key := unique_of_contDiff (G := ℝ) (F := fun x => M x.2) (c := fun _ => 0) continuousOn_const hder hz
    (by
      funext w
      by_cases hw : w = 0
      · simp [hw]
      · simp only [if_neg hw, h0 w hw, sub_self]) (fun t _ => hM.contDiffAt)
  intro t ht w hw
  have := congrFun (key t ht) w
  simp only [if_neg hw] at this
  linarith

/-- C241. So runs blend: with influents of the same total, from states of the same totals, the run under the blended influent from the
blended state is the blend of the runs. -/
theorem c241_run (m : ColModel) (P : ColParams r p z) (tH : ℝ) (hK : ∀ i, P.K i = 1) (hv : ∀ i, P.val i ≠ 2) {s t : ℝ} (hst : s + t = 1)
    {cin cin' : ℝ → Fin (p + 1) → ℝ} {t0 t1 : ℝ} (hcont : ContinuousOn cin (Icc t0 t1)) (hcont' : ContinuousOn cin' (Icc t0 t1))
    (hc : ∀ t ∈ Icc t0 t1, ∑ i, cin' t i = ∑ i, cin t i) {y y' Y : ℝ → ColState r p z}
    (hy : Spec.Solves colComp (fun t u => m.rhs P tH (cin t) u) t0 t1 y)
    (hy' : Spec.Solves colComp (fun t u => m.rhs P tH (cin' t) u) t0 t1 y')
    (hY : Spec.Solves colComp (fun τ u => m.rhs P tH (Spec.blend s t (cin τ) (cin' τ)) u) t0 t1 Y)
    (hl : ∀ w, w ≠ 0 → ∑ i, y' t0 0 i w = ∑ i, y t0 0 i w)
    {Q : ℝ} (hQ : Q ≠ 0) (hE : P.EPOR ≠ 1) (hr : ∀ (k : Fin (r + 1)) w, ∑ i, y t0 k.succ i w = Q)
    (hr' : ∀ (k : Fin (r + 1)) w, ∑ i, y' t0 k.succ i w = Q)
    (h0 : Y t0 = Spec.blendState s t (y t0) (y' t0)) :
    ∀ τ ∈ Icc t0 t1, ∀ a i w, Y τ a i w = s * y τ a i w + t * y' τ a i w := by
  have hlq := totals_follow m P tH hc hy hy' hl
  have hb : Spec.Solves colComp (fun τ u => m.rhs P tH (Spec.blend s t (cin τ) (cin' τ)) u) t0 t1
      (fun τ => Spec.blendState s t (y τ) (y' τ)) := by
    intro τ hτ a
    beta_reduce
    rw [c241_rates m P tH hK hv hst (hc τ hτ) (hlq τ hτ) (fun k w => by
      rw [c28_solutions m P tH cin hy hτ, c28_solutions m P tH cin' hy' hτ, hr, hr'])]
    exact ((hy τ hτ a).const_mul s).add ((hy' τ hτ a).const_mul t)
  have hcb : ContinuousOn (fun τ => Spec.blend s t (cin τ) (cin' τ)) (Icc t0 t1) := by
    rw [continuousOn_pi] at hcont hcont' ⊢
    intro i
    exact (continuousOn_const.mul (hcont i)).add (continuousOn_const.mul (hcont' i))
  have hdv : ¬ ∃ i, P.val i = 2 := fun ⟨i, hi⟩ => hv i hi
  have hYs : ∀ τ ∈ Icc t0 t1, ∀ (k : Fin (r + 1)) w, ∑ i, Y τ k.succ i w = Q := by
    intro τ hτ k w
    rw [c28_solutions m P tH _ hY hτ, h0]
    unfold Spec.blendState
    rw [blend_sum, hr, hr', ← add_mul, hst, one_mul]
  have hreg : ∀ τ ∈ Ico t0 t1, m.Regular P (Spec.blend s t (cin τ) (cin' τ)) (Y τ) := by
    intro τ hτ
    have hm : τ ∈ Icc t0 t1 := ⟨hτ.1, hτ.2.le⟩
    cases m
    · intro w
      unfold Spec.EqRegular
      rw [if_neg hdv]
      intro i
      simp only [hK, div_one, one_mul]
      rw [← Fin.succ_last, hYs τ hm]
      exact hQ
    · intro k w
      unfold Spec.EqRegular
      rw [if_neg hdv]
      intro i
      simp only [hK, div_one, one_mul]
      rw [← Finset.sum_div, hYs τ hm]
      exact div_ne_zero hQ (sub_ne_zero.2 (Ne.symm hE))
  intro τ hτ a i w
  rw [c209_unique m P tH hcb hY hb h0 hreg τ hτ]
  rfl

/-- C241. The start of the code and the time scale: the blend of two waters of the same total. -/
theorem c241_start (P : ColParams r p z) {s t : ℝ} (hst : s + t = 1) {cin cin' : Fin (p + 1) → ℝ} (hc : ∑ i, cin' i = ∑ i, cin i) :
    (colInit P.Q (Spec.blend s t cin cin') none : ColState r p z) =
      Spec.blendState s t (colInit P.Q cin none) (colInit P.Q cin' none) ∧
    tHalf P (Spec.blend s t cin cin') = tHalf P cin ∧ tHalf P cin' = tHalf P cin := by
  have hs : ∑ i, Spec.blend s t cin cin' i = ∑ i, cin i := by
    unfold Spec.blend
    rw [blend_sum, hc, ← add_mul, hst, one_mul]
  refine ⟨?_, ?_, ?_⟩
  · funext a i w
    unfold Spec.blendState colInit
    simp only
    split
    · split
      · rfl
      · split
        · rw [hs, hc, ← add_mul, hst, one_mul]
        · ring
    · split
      · rw [← add_mul, hst, one_mul]
      · ring
  · unfold tHalf
    rw [hs]
  · unfold tHalf
    rw [hc]

end

/-- Runs as in `c241_run` exist: a resin without selectivity and three ions, fed with any constant water. -/
example (m : ColModel) (cin : Fin 3 → ℝ) : ∃ (P : ColParams 1 2 1) (T : ℝ) (y : ℝ → ColState 1 2 1), (∀ i, P.K i = 1) ∧ (∀ i, P.val i ≠ 2) ∧
    P.EPOR ≠ 1 ∧ P.Q ≠ 0 ∧ 0 < T ∧ y 0 = colInit P.Q cin none ∧ Spec.Solves colComp (fun _ u => m.rhs P 1 cin u) 0 T y ∧
    ∀ (k : Fin 2) w, ∑ i, y 0 k.succ i w = P.Q := by
  let P : ColParams 1 2 1 := ⟨1 / 2, 1, 1, 1, 5, 1 / 2, fun _ => 1, fun _ => 1, fun _ => 1, fun _ => 1, fun _ => 1, fun _ _ => 0, fun _ _ => 0,
    fun _ => 1⟩
  have hdv : ¬ ∃ i, P.val i = 2 := by
    rintro ⟨i, hi⟩
    exact absurd hi (by show (1 : ℕ) ≠ 2; decide)
  have hsum := (c33_column (r := 1) (z := 1) P.Q cin).1
  have hreg : m.Regular P cin (colInit P.Q cin none) := by
    cases m
    · intro w
      unfold Spec.EqRegular
      rw [if_neg hdv]
      intro i
      show ∑ j, (1 : ℝ) / 1 * _ ≠ 0
      simp only [div_one, one_mul]
      have := hsum (Fin.last 1) w
      rw [Fin.succ_last] at this
      rw [this]
      show (5 : ℝ) ≠ 0
      norm_num
    · intro k w
      unfold Spec.EqRegular
      rw [if_neg hdv]
      intro i
      show ∑ j, (1 : ℝ) / 1 * _ ≠ 0
      simp only [div_one, one_mul]
      rw [← Finset.sum_div, hsum k w]
      show (5 : ℝ) / (1 - 1 / 2) ≠ 0
      norm_num
  obtain ⟨T, hT, -, y, h0, hy⟩ := c209_exists m P 1 (cin := fun _ => cin) zero_lt_one continuousOn_const hreg
  refine ⟨P, T, y, fun _ => rfl, fun i => ?_, ?_, ?_, hT, h0, hy, fun k w => ?_⟩
  · show (1 : ℕ) ≠ 2
    decide
  · show (1 / 2 : ℝ) ≠ 1
    norm_num
  · show (5 : ℝ) ≠ 0
    norm_num
  · rw [h0]
    exact hsum k w

/-- Two waters of the same total, and a resin. -/
example : (1 / 4 : ℝ) + 3 / 4 = 1 ∧ ∑ i, (![1, 2, 3] : Fin 3 → ℝ) i = ∑ i, (![4, 2, 0] : Fin 3 → ℝ) i ∧ (![1, 2, 3] : Fin 3 → ℝ) ≠ ![4, 2, 0] := by
  refine ⟨by norm_num, by norm_num [Fin.sum_univ_succ], fun h => ?_⟩
  have : (1 : ℝ) = 4 := congrFun h 0
  norm_num at this

end WTM
