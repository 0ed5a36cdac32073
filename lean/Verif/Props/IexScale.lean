import Mathlib.Tactic
import Verif.Props.IexUnique

/-! Property C218: the ion exchange equations do not depend on the units of length, time and concentration. -/
set_option autoImplicit false
namespace WTM
open BigOperators Set

section
variable {r p z : ℕ}

/-- The same column with lengths, times and concentrations given as `lam`, `th` and `ka` times as large numbers. -/
noncomputable def Spec.rescale (P : ColParams r p z) (lam th ka : ℝ) : ColParams r p z where
  EBED := P.EBED
  L := lam * P.L
  v := lam / th * P.v
  rb := lam * P.rb
  Q := ka * P.Q
  EPOR := P.EPOR
  kL i := lam / th * P.kL i
  Ds i := lam ^ 2 / th * P.Ds i
  Dp i := lam ^ 2 / th * P.Dp i
  K := P.K
  val := P.val
  Az := P.Az
  Br := P.Br
  Wr := P.Wr

variable {K : Fin (p + 1) → ℝ} {val : Fin (p + 1) → ℕ} {q : Fin (p + 1) → ℝ} {CT ka : ℝ}

theorem eqAA_scale (hk : ka ≠ 0) : eqAA K val (fun i => ka * q i) = eqAA K val q / ka := by
  unfold eqAA
  have : (∑ i, if val i = 2 then ka * q i / K i else 0) = ka * ∑ i, if val i = 2 then q i / K i else 0 := by
    rw [Finset.mul_sum]
    refine Finset.sum_congr rfl fun i _ => ?_
    split
    · ring
    · ring
  rw [this]
  field_simp

theorem eqBB_scale (hk : ka ≠ 0) : eqBB K val (fun i => ka * q i) = eqBB K val q := by
  unfold eqBB
  have : (∑ i, if val i = 1 ∧ i ≠ 0 then ka * q i / K i else 0) = ka * ∑ i, if val i = 1 ∧ i ≠ 0 then q i / K i else 0 := by
    rw [Finset.mul_sum]
    refine Finset.sum_congr rfl fun i _ => ?_
    split
    · ring
    · ring
  rw [this, mul_div_mul_left _ _ hk]

theorem ceqMv_scale (hk : ka ≠ 0) (i : Fin (p + 1)) :
    ceqMv K (fun i => ka * q i) (ka * CT) i = ka * ceqMv K q CT i := by
  unfold ceqMv
  have : ∑ j, alphaMat K i j * (ka * q j) = ka * ∑ j, alphaMat K i j * q j := by
    rw [Finset.mul_sum]
    exact Finset.sum_congr rfl fun j _ => by ring
  rw [this]
  have e : ka * q i * (ka * CT) = ka * (ka * (q i * CT)) := by ring
  rw [e, mul_div_mul_left _ _ hk, mul_div_assoc]

theorem ceqOfRef_scale (hk : ka ≠ 0) (c : ℝ) (i : Fin (p + 1)) :
    ceqOfRef K val (fun i => ka * q i) (ka * c) i = ka * ceqOfRef K val q c i := by
  unfold ceqOfRef
  split
  · rfl
  · rw [mul_div_mul_left _ _ hk]
    ring

/-- The equilibrium concentrations scale with loadings and total. -/
theorem ceq_scale (hk : ka ≠ 0) (i : Fin (p + 1)) :
    ceq K val (fun i => ka * q i) (ka * CT) i = ka * ceq K val q CT i := by
  unfold ceq
  split
  · unfold ceqDv
    have : refConc K val (fun i => ka * q i) (ka * CT) = ka * refConc K val q CT := by
      unfold refConc
      simp only [eqAA_scale hk, eqBB_scale hk]
      have e : eqBB K val q ^ 2 - 4 * (eqAA K val q / ka) * -(ka * CT) = eqBB K val q ^ 2 - 4 * eqAA K val q * -CT := by
        field_simp
      rw [e]
      ring
    rw [this]
    exact ceqOfRef_scale hk _ i
  · exact ceqMv_scale hk i

theorem ceqB_scale (hk : ka ≠ 0) (i : Fin (p + 1)) :
    ceqB K val (fun i => ka * q i) (ka * CT) i = ka * ceqB K val q CT i := by
  unfold ceqB
  split
  · simp only [eqAA_scale hk, eqBB_scale hk]
    have e : eqBB K val q ^ 2 - 4 * (eqAA K val q / ka) * -(ka * CT) = eqBB K val q ^ 2 - 4 * eqAA K val q * -CT := by
      field_simp
    rw [e]
    set s := -eqBB K val q + Real.sqrt (eqBB K val q ^ 2 - 4 * eqAA K val q * -CT) with hs
    have e2 : s / (2 * (eqAA K val q / ka)) = ka * (s / (2 * eqAA K val q)) := by
      by_cases ha : eqAA K val q = 0
      · simp [ha]
      · field_simp
    rw [e2]
    exact ceqOfRef_scale hk _ i
  · exact ceqMv_scale hk i

/-! ### Columns -/

theorem implicitRef_scale (c : ℝ) (f : Fin (p + 1) → ℝ) (i : Fin (p + 1)) :
    implicitRef (fun i => c * f i) i = c * implicitRef f i := by
  unfold implicitRef
  split
  · rw [← Finset.mul_sum]; ring
  · rfl

variable {lam th : ℝ}

theorem setInlet_scale (ka : ℝ) (u : ColState r p z) (cin : Fin (p + 1) → ℝ) :
    setInlet (fun a i w => ka * u a i w) (fun i => ka * cin i) = fun a i w => ka * setInlet u cin a i w := by
  funext a i w
  unfold setInlet
  split <;> rfl

theorem load_scale (m : ColModel) (P : ColParams r p z) (lam th ka x : ℝ) :
    m.load (Spec.rescale P lam th ka) (ka * x) = ka * m.load P x := by
  cases m
  · rfl
  · simp only [ColModel.load, Spec.rescale]
    ring

theorem flux_scale (m : ColModel) (P : ColParams r p z) (hk : ka ≠ 0) (u : ColState r p z) (i : Fin (p + 1)) (w : Fin (z + 1)) :
    m.flux (Spec.rescale P lam th ka) (fun a i w => ka * u a i w) i w = lam / th * ka * m.flux P u i w := by
  unfold ColModel.flux fluxJ
  rw [← implicitRef_scale]
  refine congrArg (fun f => implicitRef f i) (funext fun j => ?_)
  simp only [load_scale, ← Finset.mul_sum]
  have : ceq (Spec.rescale P lam th ka).K (Spec.rescale P lam th ka).val
      (fun j => ka * m.load P (u (Fin.last (r + 1)) j w)) (ka * ∑ j, u 0 j w) j =
      ka * ceq P.K P.val (fun j => m.load P (u (Fin.last (r + 1)) j w)) (∑ j, u 0 j w) j := ceq_scale hk j
  rw [this]
  simp only [Spec.rescale]
  ring

theorem bead_scale (m : ColModel) (P : ColParams r p z) (hl : lam ≠ 0) (ht : th ≠ 0) (hk : ka ≠ 0) (tH : ℝ)
    (u : ColState r p z) (k : Fin (r + 1)) (i : Fin (p + 1)) (w : Fin (z + 1)) :
    m.bead (Spec.rescale P lam th ka) (th * tH) (fun a i w => ka * u a i w) k i w = ka * m.bead P tH u k i w := by
  cases m
  · simp only [ColModel.bead, hsdmBead]
    rw [← implicitRef_scale]
    refine congrArg (fun f => implicitRef f i) (funext fun j => ?_)
    simp only [Spec.rescale]
    have : ∑ l, P.Br k l * (ka * u l.succ j w) = ka * ∑ l, P.Br k l * u l.succ j w := by
      rw [Finset.mul_sum]; exact Finset.sum_congr rfl fun l _ => by ring
    rw [this]
    have e : lam ^ 2 / th * P.Ds j * (th * tH) / (lam * P.rb) ^ 2 = P.Ds j * tH / P.rb ^ 2 := by
      by_cases hr : P.rb = 0
      · simp [hr]
      · field_simp
    rw [e]; ring
  · simp only [ColModel.bead, psdmBead]
    rw [← implicitRef_scale]
    refine congrArg (fun f => implicitRef f i) (funext fun j => ?_)
    have hp : ∀ l, poreConc (Spec.rescale P lam th ka) (fun a i w => ka * u a i w) l j w = ka * poreConc P u l j w := by
      intro l
      unfold poreConc
      simp only [← Finset.mul_sum, Spec.rescale, mul_div_assoc]
      exact ceq_scale hk j
    simp only [hp]
    have e1 : ∑ l, (Spec.rescale P lam th ka).Br k l * (ka * poreConc P u l j w) = ka * ∑ l, P.Br k l * poreConc P u l j w := by
      rw [Finset.mul_sum]; exact Finset.sum_congr rfl fun l _ => by simp only [Spec.rescale]; ring
    have e2 : ∑ l, (Spec.rescale P lam th ka).Br k l * (ka * u l.succ j w) = ka * ∑ l, P.Br k l * u l.succ j w := by
      rw [Finset.mul_sum]; exact Finset.sum_congr rfl fun l _ => by simp only [Spec.rescale]; ring
    rw [e1, e2]
    simp only [Spec.rescale]
    by_cases hr : P.rb = 0
    · simp [hr]
    · field_simp

/-- C218. The rates of a column in other units are the rates in other units. -/
theorem c218_rates (m : ColModel) (P : ColParams r p z) (hl : lam ≠ 0) (ht : th ≠ 0) (hk : ka ≠ 0) (tH : ℝ)
    (cin : Fin (p + 1) → ℝ) (u : ColState r p z) :
    m.rhs (Spec.rescale P lam th ka) (th * tH) (fun i => ka * cin i) (fun a i w => ka * u a i w) =
      fun a i w => ka * m.rhs P tH cin u a i w := by
  funext a i w
  simp only [rhs_eq, setInlet_scale]
  have hJ := fun i w => flux_scale (lam := lam) (th := th) m P hk (setInlet u cin) i w
  induction a using Fin.cases with
  | zero =>
    simp only [assemble_liq]
    split
    · ring
    · unfold liqRate
      rw [hJ]
      have e1 : ∑ w', (Spec.rescale P lam th ka).Az w w' * (ka * setInlet u cin 0 i w') =
          ka * ∑ w', P.Az w w' * setInlet u cin 0 i w' := by
        rw [Finset.mul_sum]; exact Finset.sum_congr rfl fun l _ => by simp only [Spec.rescale]; ring
      rw [e1]
      simp only [Spec.rescale]
      have e2 : -(lam / th * P.v) / (lam * P.L) = (-P.v / P.L) / th := by
        by_cases hL : P.L = 0
        · simp [hL]
        · field_simp
      have e3 : ∀ J : ℝ, lam / th * ka * J * 3 / (lam * P.rb) = ka / th * (J * 3 / P.rb) := by
        intro J
        by_cases hr : P.rb = 0
        · simp [hr]
        · field_simp
      rw [e2, e3]
      field_simp
  | succ k =>
    simp only [assemble_bead]
    split
    · rw [hJ]
      simp only [bead_scale m P hl ht hk]
      have e1 : ∑ k' : Fin r, (Spec.rescale P lam th ka).Wr k'.castSucc * (ka * m.bead P tH (setInlet u cin) k'.castSucc i w) =
          ka * ∑ k' : Fin r, P.Wr k'.castSucc * m.bead P tH (setInlet u cin) k'.castSucc i w := by
        rw [Finset.mul_sum]; exact Finset.sum_congr rfl fun l _ => by simp only [Spec.rescale]; ring
      rw [e1]
      simp only [Spec.rescale]
      have e2 : ∀ J : ℝ, -(th * tH) / (lam * P.rb) * (lam / th * ka * J) = ka * (-tH / P.rb * J) := by
        intro J
        by_cases hr : P.rb = 0
        · simp [hr]
        · field_simp
      rw [e2]
      ring
    · exact bead_scale m P hl ht hk tH _ k i w

/-- C218. The time scale of a column and its start state change with the units. -/
theorem c218_start (P : ColParams r p z) (hl : lam ≠ 0) (ht : th ≠ 0) (hk : ka ≠ 0) (cin : Fin (p + 1) → ℝ) :
    tHalf (Spec.rescale P lam th ka) (fun i => ka * cin i) = th * tHalf P cin ∧
      (colInit (ka * P.Q) (fun i => ka * cin i) none : ColState r p z) = fun a i w => ka * colInit P.Q cin none a i w := by
  constructor
  · unfold tHalf
    simp only [Spec.rescale, ← Finset.mul_sum]
    have e1 : (1 - P.EBED) / P.EBED * (ka * P.Q) / (ka * ∑ i, cin i) = (1 - P.EBED) / P.EBED * P.Q / ∑ i, cin i := by
      have : (1 - P.EBED) / P.EBED * (ka * P.Q) = ka * ((1 - P.EBED) / P.EBED * P.Q) := by ring
      rw [this, mul_div_mul_left _ _ hk]
    have e2 : lam * P.L * P.EBED / (lam / th * P.v) = th * (P.L * P.EBED / P.v) := by
      by_cases hv : P.v = 0
      · simp [hv]
      · field_simp
    rw [e1, e2]
    ring
  · funext a i w
    simp only [colInit]
    split
    · split
      · rfl
      · split
        · rw [← Finset.mul_sum]
        · ring
    · split
      · rfl
      · ring

/-- C218. Runs of a column in other units are its runs in other units: same dimensionless times, all concentrations `ka` times
as large. -/
theorem c218_runs (m : ColModel) (P : ColParams r p z) (hl : lam ≠ 0) (ht : th ≠ 0) (hk : ka ≠ 0) {cin : ℝ → Fin (p + 1) → ℝ}
    {T : ℝ} {y : ℝ → ColState r p z} (h0 : y 0 = colInit P.Q (cin 0) none)
    (hy : Spec.Solves colComp (fun t u => m.rhs P (tHalf P (cin 0)) (cin t) u) 0 T y) :
    let P' := Spec.rescale P lam th ka
    let cin' := fun t i => ka * cin t i
    let y' := fun t a i w => ka * y t a i w
    y' 0 = colInit P'.Q (cin' 0) none ∧ Spec.Solves colComp (fun t u => m.rhs P' (tHalf P' (cin' 0)) (cin' t) u) 0 T y' := by
  intro P' cin' y'
  obtain ⟨h1, h2⟩ := c218_start P hl ht hk (cin 0)
  refine ⟨?_, fun t ht' a => ?_⟩
  · show (fun a i w => ka * y 0 a i w) = _
    rw [h0]
    exact h2.symm
  · have := (hy t ht' a).const_mul ka
    refine this.congr_deriv ?_
    show _ = m.rhs P' (tHalf P' (cin' 0)) (cin' t) (y' t) a.1 a.2.1 a.2.2
    have e : tHalf P' (cin' 0) = th * tHalf P (cin 0) := h1
    rw [e]
    have := congrFun (congrFun (congrFun (c218_rates m P hl ht hk (tHalf P (cin 0)) (cin t) (y t)) a.1) a.2.1) a.2.2
    exact this.symm

/-- C218. Two beds with the same ratio of length and velocity give the same run: only the contact time counts. -/
theorem c218_contact (m : ColModel) (P : ColParams r p z) {c : ℝ} (hc : c ≠ 0) (tH : ℝ) (cin : Fin (p + 1) → ℝ) (u : ColState r p z) :
    m.rhs { P with L := c * P.L, v := c * P.v } tH cin u = m.rhs P tH cin u ∧
      tHalf { P with L := c * P.L, v := c * P.v } cin = tHalf P cin := by
  have e : -(c * P.v) / (c * P.L) = -P.v / P.L := by
    rw [← mul_neg, mul_div_mul_left _ _ hc]
  constructor
  · have hl : ∀ C J, liqRate { P with L := c * P.L, v := c * P.v } tH C J = liqRate P tH C J := by
      intro C J
      funext i w
      unfold liqRate
      simp only [e]
    rw [rhs_eq, rhs_eq, hl]
    cases m <;> rfl
  · unfold tHalf
    simp only
    rw [mul_assoc c, mul_div_mul_left _ _ hc]

/-! ### Batch runs -/

/-- The same batch run in other units. -/
noncomputable def Spec.rescaleB (P : BatchParams r p) (lam th ka : ℝ) : BatchParams r p where
  RHOP := P.RHOP
  Qm := ka * P.Qm
  EPOR := P.EPOR
  VR := lam ^ 3 * P.VR
  VL := lam ^ 3 * P.VL
  Ds := lam ^ 2 / th * P.Ds
  Dp := lam ^ 2 / th * P.Dp
  kL := lam / th * P.kL
  rb := lam * P.rb
  C0 i := ka * P.C0 i
  K := P.K
  val := P.val
  Br := P.Br
  Wr := P.Wr

theorem ceqBatch_scale (hk : ka ≠ 0) :
    ceqBatch K val (fun i => ka * q i) (ka * CT) = (ceqBatch K val q CT).map fun C i => ka * C i := by
  unfold ceqBatch
  split
  · simp only [refConcBatch, eqAA_scale hk, eqBB_scale hk]
    by_cases ha : eqAA K val q = 0
    · simp [ha]
    · have ha' : eqAA K val q / ka ≠ 0 := div_ne_zero ha hk
      have e : eqBB K val q ^ 2 - 4 * (eqAA K val q / ka) * -(ka * CT) = eqBB K val q ^ 2 - 4 * eqAA K val q * -CT := by
        field_simp
      rw [if_neg ha, if_neg ha', e]
      simp only [Option.map_some, Option.some.injEq]
      funext i
      rw [← ceqOfRef_scale hk]
      congr 1
      field_simp
  · simp only [Option.map_some, Option.some.injEq]
    funext i
    exact ceqMv_scale hk i

theorem batchAssemble_scale (P : BatchParams r p) (hl : lam ≠ 0) (ht : th ≠ 0) (J : Fin (p + 1) → ℝ)
    (dq : Fin (r + 1) → Fin (p + 1) → ℝ) :
    batchAssemble (Spec.rescaleB P lam th ka) (fun i => lam / th * ka * J i) (fun k i => ka / th * dq k i) =
      fun a i => ka / th * batchAssemble P J dq a i := by
  funext a i
  induction a using Fin.cases with
  | zero =>
    simp only [batchAssemble, Fin.cases_zero, Spec.rescaleB]
    by_cases hr : P.rb = 0
    · simp [hr]
    · by_cases hv : P.VL = 0
      · simp [hv]
      · field_simp
  | succ k =>
    simp only [batchAssemble, Fin.cases_succ]
    split
    · have e1 : ∑ k' : Fin r, (Spec.rescaleB P lam th ka).Wr k'.castSucc * (ka / th * dq k'.castSucc i) =
          ka / th * ∑ k' : Fin r, P.Wr k'.castSucc * dq k'.castSucc i := by
        rw [Finset.mul_sum]; exact Finset.sum_congr rfl fun l _ => by simp only [Spec.rescaleB]; ring
      rw [e1]
      simp only [Spec.rescaleB]
      have e2 : -(lam / th * ka * J i) / (lam * P.rb) = ka / th * (-J i / P.rb) := by
        by_cases hr : P.rb = 0
        · simp [hr]
        · field_simp
      rw [e2]
      ring
    · rfl

/-- C218. The rates of a batch run in other units are the rates in other units. -/
theorem c218_batch_rates (m : BatchModel) (P : BatchParams r p) (hl : lam ≠ 0) (ht : th ≠ 0) (hk : ka ≠ 0)
    (u : BatchState r p) :
    m.rhs (Spec.rescaleB P lam th ka) (fun a i => ka * u a i) = (m.rhs P u).map fun d a i => ka / th * d a i := by
  have hC : ∑ i, (Spec.rescaleB P lam th ka).C0 i = ka * ∑ i, P.C0 i := by
    rw [Finset.mul_sum]; rfl
  have hj : ∀ C : Fin (p + 1) → ℝ, (fun i => -(Spec.rescaleB P lam th ka).kL * (ka * u 0 i - ka * C i)) =
      fun i => lam / th * ka * (-P.kL * (u 0 i - C i)) := by
    intro C; funext i; simp only [Spec.rescaleB]; ring
  have hs : ∀ (k : Fin (r + 1)) (f : Fin (r + 1) → ℝ), ∑ l, (Spec.rescaleB P lam th ka).Br k l * (ka * f l) =
      ka * ∑ l, P.Br k l * f l := by
    intro k f
    rw [Finset.mul_sum]; exact Finset.sum_congr rfl fun l _ => by simp only [Spec.rescaleB]; ring
  cases m
  · simp only [BatchModel.rhs, hsdmBatchRhs, hC]
    have := ceqBatch_scale (K := P.K) (val := P.val) (q := u (Fin.last (r + 1))) (CT := ∑ i, P.C0 i) hk
    have h' : ceqBatch (Spec.rescaleB P lam th ka).K (Spec.rescaleB P lam th ka).val
        (fun i => ka * u (Fin.last (r + 1)) i) (ka * ∑ i, P.C0 i) = _ := this
    rw [h', Option.map_map, Option.map_map]
    refine congrArg (fun f => Option.map f _) (funext fun C => ?_)
    simp only [Function.comp, hj, hs]
    rw [← batchAssemble_scale P hl ht]
    congr 1
    funext k i
    simp only [Spec.rescaleB]
    by_cases hr : P.rb = 0
    · simp [hr]
    · field_simp
  · simp only [BatchModel.rhs, psdmBatchRhs, hC]
    have hq : ∀ k : Fin (r + 1), ceqBatch (Spec.rescaleB P lam th ka).K (Spec.rescaleB P lam th ka).val
        (fun i => ka * u k.succ i / (1 - (Spec.rescaleB P lam th ka).EPOR)) (ka * ∑ i, P.C0 i) =
        (ceqBatch P.K P.val (fun i => u k.succ i / (1 - P.EPOR)) (∑ i, P.C0 i)).map fun C i => ka * C i := by
      intro k
      simp only [mul_div_assoc]
      exact ceqBatch_scale hk
    simp only [hq]
    by_cases h : ∀ k : Fin (r + 1), (ceqBatch P.K P.val (fun i => u k.succ i / (1 - P.EPOR)) (∑ i, P.C0 i)).isSome
    · have h' : ∀ k : Fin (r + 1), ((ceqBatch P.K P.val (fun i => u k.succ i / (1 - P.EPOR)) (∑ i, P.C0 i)).map
          fun C i => ka * C i).isSome := fun k => by simpa using h k
      rw [dif_pos h, dif_pos h', Option.map_some, Option.some.injEq]
      have hg : ∀ (k : Fin (r + 1)) (pf : (ceqBatch (Spec.rescaleB P lam th ka).K (Spec.rescaleB P lam th ka).val
          (fun i => ka * u k.succ i / (1 - (Spec.rescaleB P lam th ka).EPOR))
          (∑ i, (Spec.rescaleB P lam th ka).C0 i)).isSome), (ceqBatch (Spec.rescaleB P lam th ka).K
          (Spec.rescaleB P lam th ka).val (fun i => ka * u k.succ i / (1 - (Spec.rescaleB P lam th ka).EPOR))
          (∑ i, (Spec.rescaleB P lam th ka).C0 i)).get pf = fun i => ka *
          (ceqBatch P.K P.val (fun i => u k.succ i / (1 - P.EPOR)) (∑ i, P.C0 i)).get (h k) i := by
        intro k pf
        apply Option.some_injective
        rw [Option.some_get, hC, hq k]
        conv_lhs => rw [← Option.some_get (h k)]
        rfl
      simp only [hg, hj, hs]
      rw [← batchAssemble_scale P hl ht]
      congr 1
      funext k i
      simp only [Spec.rescaleB]
      by_cases hr : P.rb = 0
      · simp [hr]
      · field_simp
    · have h' : ¬ ∀ k : Fin (r + 1), ((ceqBatch P.K P.val (fun i => u k.succ i / (1 - P.EPOR)) (∑ i, P.C0 i)).map
          fun C i => ka * C i).isSome := fun hh => h fun k => by simpa using hh k
      rw [dif_neg h, dif_neg h', Option.map_none]

/-- C218. The start of a batch run in other units. -/
theorem c218_batch_start (P : BatchParams r p) : batchInit (Spec.rescaleB P lam th ka) = fun a i => ka * batchInit P a i := by
  funext a i
  simp only [batchInit]
  by_cases ha : a = 0
  · rw [if_pos ha, if_pos ha]
    rfl
  · rw [if_neg ha, if_neg ha]
    by_cases hd : ∃ j, P.val j = 2
    · have hd' : ∃ j, (Spec.rescaleB P lam th ka).val j = 2 := hd
      rw [if_pos hd, if_pos hd']
      by_cases hi : i = 0
      · rw [if_pos hi, if_pos hi]
        generalize hn : (Finset.univ.filter (fun j => P.val j = 2)).card = n
        have hn' : (Finset.univ.filter (fun j => (Spec.rescaleB P lam th ka).val j = 2)).card = n := hn
        rw [hn']
        simp only [Spec.rescaleB]
        ring
      · rw [if_neg hi, if_neg hi]
        by_cases hv : P.val i = 2
        · have hv' : (Spec.rescaleB P lam th ka).val i = 2 := hv
          rw [if_pos hv, if_pos hv']
          simp only [Spec.rescaleB]
          ring
        · have hv' : ¬ (Spec.rescaleB P lam th ka).val i = 2 := hv
          rw [if_neg hv, if_neg hv', mul_zero]
    · have hd' : ¬ ∃ j, (Spec.rescaleB P lam th ka).val j = 2 := hd
      rw [if_neg hd, if_neg hd']
      simp only [Spec.rescaleB]
      split
      · ring
      · ring

/-- C218. A batch run in other units is the run in other units, read at the same times. -/
theorem c218_batch_runs (m : BatchModel) (P : BatchParams r p) (hl : lam ≠ 0) (ht : 0 < th) (hk : ka ≠ 0) {T : ℝ}
    {y : ℝ → BatchState r p} (h0 : y 0 = batchInit P) (hy : m.Runs P 0 T y) :
    let y' := fun t a i => ka * y (t / th) a i
    y' 0 = batchInit (Spec.rescaleB P lam th ka) ∧ m.Runs (Spec.rescaleB P lam th ka) 0 (th * T) y' := by
  intro y'
  refine ⟨?_, fun t hT => ?_⟩
  · rw [c218_batch_start]
    show (fun a i => ka * y (0 / th) a i) = _
    rw [zero_div, h0]
  · have hm : ∀ s ∈ Icc 0 (th * T), s / th ∈ Icc 0 T := by
      intro s hs
      exact ⟨div_nonneg hs.1 ht.le, by rw [div_le_iff₀ ht, mul_comm]; exact hs.2⟩
    obtain ⟨d, hd, hdy⟩ := hy (t / th) (hm t hT)
    refine ⟨fun a i => ka / th * d a i, ?_, fun a i => ?_⟩
    · show m.rhs _ (fun a i => ka * y (t / th) a i) = _
      rw [c218_batch_rates m P hl ht.ne' hk, hd]
      rfl
    · have h1 : HasDerivWithinAt (fun s => s / th) (1 / th) (Icc 0 (th * T)) t :=
        (hasDerivWithinAt_id t _).div_const th
      have h2 := ((hdy a i).scomp t h1 hm).const_mul ka
      refine h2.congr_deriv ?_
      simp only [smul_eq_mul]
      ring

/-- C218. A batch run stays the same when resin and water are both multiplied: only their ratio counts. -/
theorem c218_batch_ratio (m : BatchModel) (P : BatchParams r p) {c : ℝ} (hc : c ≠ 0) (u : BatchState r p) :
    m.rhs { P with VR := c * P.VR, VL := c * P.VL } u = m.rhs P u := by
  have e : ∀ J dq, batchAssemble { P with VR := c * P.VR, VL := c * P.VL } J dq = batchAssemble P J dq := by
    intro J dq
    funext a i
    induction a using Fin.cases with
    | zero =>
      simp only [batchAssemble, Fin.cases_zero]
      have : 3 * (c * P.VR) / P.rb * J i = c * (3 * P.VR / P.rb * J i) := by ring
      rw [this, mul_div_mul_left _ _ hc]
    | succ k => rfl
  cases m
  · simp only [BatchModel.rhs, hsdmBatchRhs, e]
  · simp only [BatchModel.rhs, psdmBatchRhs, e]

/-! ### Determinacy and examples -/

/-- C218. So the run of a column in other units, if it exists, is the run in the first units times `ka`, as long as the formulas
are regular along it. -/
theorem c218_unique (m : ColModel) (P : ColParams r p z) (hl : lam ≠ 0) (ht : th ≠ 0) (hk : ka ≠ 0) {cin : ℝ → Fin (p + 1) → ℝ}
    {T : ℝ} (hc : ContinuousOn cin (Icc 0 T)) {y y' : ℝ → ColState r p z} (h0 : y 0 = colInit P.Q (cin 0) none)
    (hy : Spec.Solves colComp (fun t u => m.rhs P (tHalf P (cin 0)) (cin t) u) 0 T y)
    (h0' : y' 0 = colInit (ka * P.Q) (fun i => ka * cin 0 i) none)
    (hy' : Spec.Solves colComp (fun t u => m.rhs (Spec.rescale P lam th ka)
      (tHalf (Spec.rescale P lam th ka) (fun i => ka * cin 0 i)) (fun i => ka * cin t i) u) 0 T y')
    (hreg : ∀ t ∈ Ico 0 T, m.Regular (Spec.rescale P lam th ka) (fun i => ka * cin t i) (y' t)) :
    ∀ t ∈ Icc 0 T, ∀ a i w, y' t a i w = ka * y t a i w := by
  obtain ⟨e0, hs⟩ := c218_runs m P hl ht hk h0 hy
  intro t htT a i w
  have := c209_unique m (Spec.rescale P lam th ka) _ (cin := fun t i => ka * cin t i)
    (continuousOn_pi.2 fun i => continuousOn_const.mul ((continuousOn_pi.1 hc) i)) hy' hs (h0'.trans e0.symm) hreg t htT
  rw [this]

/-- C218. A column in centimetres, seconds and milliequivalents per litre, with sulfate, and the same in metres, hours and
equivalents per litre: the time scale is 1/3600, the effluent 1/1000. -/
noncomputable def exScale : ColParams 0 1 1 where
  EBED := 2 / 5
  L := 30
  v := 1 / 10
  rb := 1 / 20
  Q := 1400
  EPOR := 1 / 5
  kL _ := 1 / 500
  Ds _ := 1 / 10 ^ 7
  Dp _ := 1 / 10 ^ 6
  K := ![1, 3 / 2]
  val := ![1, 2]
  Az := ![![-1, 1], ![-1, 1]]
  Br := fun _ _ => 0
  Wr := fun _ => 1 / 3

example : (Spec.rescale exScale (1 / 100) (1 / 3600) (1 / 1000)).v = 18 / 5 ∧
    (Spec.rescale exScale (1 / 100) (1 / 3600) (1 / 1000)).L = 3 / 10 ∧
    tHalf exScale ![2, 3] = 50520 ∧
    tHalf (Spec.rescale exScale (1 / 100) (1 / 3600) (1 / 1000)) (fun i => 1 / 1000 * ![2, 3] i) = 421 / 30 := by
  have h1 : tHalf exScale ![2, 3] = 50520 := by
    norm_num [tHalf, exScale, Fin.sum_univ_succ]
  refine ⟨by norm_num [Spec.rescale, exScale], by norm_num [Spec.rescale, exScale], h1, ?_⟩
  rw [(c218_start exScale (lam := 1 / 100) (th := 1 / 3600) (ka := 1 / 1000) (by norm_num) (by norm_num) (by norm_num) ![2, 3]).1,
    h1]
  norm_num

/-- That column has runs, in both units. -/
example (m : ColModel) : ∃ T : ℝ, 0 < T ∧ ∃ y : ℝ → ColState 0 1 1, y 0 = colInit exScale.Q ![2, 3] none ∧
    Spec.Solves colComp (fun _ u => m.rhs exScale (tHalf exScale ![2, 3]) ![2, 3] u) 0 T y := by
  obtain ⟨t2, h1, -, y, h0, hy⟩ := c209_start m exScale (fun i => by fin_cases i <;> norm_num [exScale]) rfl rfl
    (by norm_num [exScale]) (by norm_num [exScale]) (tHalf exScale ![2, 3]) (cin := fun _ => ![2, 3]) (t1 := 1) one_pos
    continuousOn_const (by norm_num [Fin.sum_univ_succ])
  exact ⟨t2, h1, y, h0, hy⟩

end
end WTM
