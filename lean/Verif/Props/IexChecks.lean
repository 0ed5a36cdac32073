import Mathlib.Tactic
import Mathlib.Analysis.Complex.ExponentialBounds
import Verif.Model.IexChecks
import Verif.Lemmas.Global
import Verif.Props.IexUnique
import Verif.Props.Balance

/-! Property C217: what the checks after an ion exchange run find. -/
set_option autoImplicit false
namespace WTM
open BigOperators Set

/-! ### Totals along a run -/

section
variable {r p z : ℕ}

/-- C217. A constant total of the influent is the total everywhere along the bed, at all times of an exact run. -/
theorem c217_totals (m : ColModel) (P : ColParams r p z) (tH : ℝ) (hA : ∀ w, ∑ w', P.Az w w' = 0)
    {cin : ℝ → Fin (p + 1) → ℝ} {T CT : ℝ} (hcin : ∀ t ∈ Icc 0 T, ∑ i, cin t i = CT) {y : ℝ → ColState r p z}
    (h0 : ∀ w, w ≠ 0 → ∑ i, y 0 0 i w = CT) (hy : Spec.Solves colComp (fun t u => m.rhs P tH (cin t) u) 0 T y)
    {t : ℝ} (ht : t ∈ Icc 0 T) {w : Fin (z + 1)} (hw : w ≠ 0) : ∑ i, y t 0 i w = CT := by
  let F : (Fin (z + 1) → ℝ) → Fin (z + 1) → ℝ := fun s w =>
    if w = 0 then 0 else -P.v / P.L * (∑ w', P.Az w w' * s w') / P.EBED * tH
  have hF : LocallyLipschitz F := by
    refine ContDiff.locallyLipschitz (𝕂 := ℝ) (contDiff_pi.2 fun w => ?_)
    by_cases hw : w = 0
    · simp only [F, if_pos hw]; exact contDiff_const
    · simp only [F, if_neg hw]; fun_prop
  let s : ℝ → Fin (z + 1) → ℝ := fun t w => if w = 0 then 0 else ∑ i, y t 0 i w - CT
  have hs : ∀ t ∈ Icc 0 T, HasDerivWithinAt s (F (s t)) (Icc 0 T) t := by
    intro t ht
    refine hasDerivWithinAt_pi.2 fun w => ?_
    by_cases hw : w = 0
    · simp only [s, F, if_pos hw]; exact hasDerivWithinAt_const _ _ _
    · simp only [s, F, if_neg hw]
      have h1 : HasDerivWithinAt (fun t => ∑ i, y t 0 i w) (∑ i, m.rhs P tH (cin t) (y t) 0 i w) (Icc 0 T) t :=
        HasDerivWithinAt.fun_sum fun i _ => hy t ht (0, i, w)
      refine (h1.sub_const CT).congr_deriv ?_
      rw [c30_advection_only m P tH (cin t) (y t) hw]
      congr 3
      have e : ∀ w', ∑ i, setInlet (y t) (cin t) 0 i w' = (if w' = 0 then 0 else ∑ i, y t 0 i w' - CT) + CT := by
        intro w'
        by_cases h' : w' = 0
        · simp only [h', if_true, zero_add]
          rw [← hcin t ht]
          exact Finset.sum_congr rfl fun i _ => by simp [setInlet]
        · simp only [if_neg h', sub_add_cancel]
          exact Finset.sum_congr rfl fun i _ => by simp [setInlet, h']
      simp only [e, mul_add]
      rw [Finset.sum_add_distrib, ← Finset.sum_mul, hA, zero_mul, add_zero]
  have hz : ∀ t ∈ Icc 0 T, HasDerivWithinAt (fun _ : ℝ => (0 : Fin (z + 1) → ℝ)) (F 0) (Icc 0 T) t := by
    intro t _
    have : F 0 = 0 := by
      funext w
      simp [F]
    rw [this]
    exact hasDerivWithinAt_const _ _ _
  have hs0 : s 0 = 0 := by
    funext w
    by_cases hw : w = 0
    · simp [s, hw]
    · simp [s, hw, h0 w hw]
  have := congrFun (unique_auto hF hs hz hs0 t ht) w
  simp only [s, if_neg hw, Pi.zero_apply] at this
  linarith

/-- Sampled states of an exact run. -/
def Spec.Sampled {S : Type} (y : ℝ → S) (T : ℝ) (out : List (ℝ × S)) : Prop := ∀ x ∈ out, x.1 ∈ Icc 0 T ∧ x.2 = y x.1

/-- A column with an axial matrix that maps constants to zero, as those of `solve` do (C14, C19), and physical dimensions. -/
structure Spec.CodeGrid (P : ColParams r p z) : Prop where
  rows : ∀ w, ∑ w', P.Az w w' = 0
  bed : 0 < P.EBED ∧ P.EBED < 1
  pos : 0 < P.L ∧ 0 < P.v ∧ 0 < P.rb ∧ 0 < P.Q

end

/-- C217, full claim: exact runs as the code starts them give no warning about totals. -/
def C217 : Prop := ∀ (r p z : ℕ) (m : ColModel) (P : ColParams r p (z + 1)) (tH : ℝ) (cin : ℝ → Fin (p + 1) → ℝ) (T : ℝ)
  (y : ℝ → ColState r p (z + 1)) (out : List (ℝ × ColState r p (z + 1))), Spec.CodeGrid P → 0 < tH → (∀ t i, 0 < cin t i) →
  Continuous cin → y 0 = colInit P.Q (cin 0) none → Spec.Solves colComp (fun t u => m.rhs P tH (cin t) u) 0 T y →
  Spec.Sampled y T out → ¬ warnOutlet cin out ∧ ¬ warnResin P.Q out

theorem npClose_self {rtol a : ℝ} (h : 0 ≤ rtol) : npClose rtol a a := by
  unfold npClose
  rw [sub_self, abs_zero]
  positivity

section
variable {r p z : ℕ}

/-- C217. With a constant total of the influent neither warning about totals appears after an exact run. -/
theorem c217_partial (m : ColModel) (P : ColParams r p (z + 1)) (hP : Spec.CodeGrid P) (tH : ℝ)
    {cin : ℝ → Fin (p + 1) → ℝ} {T CT : ℝ} (hcin : ∀ t ∈ Icc 0 T, ∑ i, cin t i = CT) {y : ℝ → ColState r p (z + 1)}
    (h0 : y 0 = colInit P.Q (cin 0) none) (hy : Spec.Solves colComp (fun t u => m.rhs P tH (cin t) u) 0 T y)
    {out : List (ℝ × ColState r p (z + 1))} (ho : Spec.Sampled y T out) : ¬ warnOutlet cin out ∧ ¬ warnResin P.Q out := by
  unfold warnOutlet warnResin
  push Not
  refine ⟨fun x hx => ?_, fun x hx w => ?_⟩
  · obtain ⟨h1, h2⟩ := ho x hx
    have h0T : (0:ℝ) ∈ Icc 0 T := ⟨le_rfl, h1.1.trans h1.2⟩
    rw [h2, c217_totals m P tH hP.rows hcin (fun w _ => ?_) hy h1 Fin.last_pos.ne', hcin _ h1]
    · exact npClose_self (by norm_num)
    · rw [h0, (c33_column P.Q (cin 0)).2.1, hcin 0 h0T]
  · obtain ⟨h1, h2⟩ := ho x hx
    have := c28_solutions m P tH cin hy h1 (Fin.last r) w
    rw [h2, ← Fin.succ_last, this, h0, (c33_column P.Q (cin 0)).1]
    exact npClose_self (by norm_num)

/-- C217. The first warning appears exactly when at some stored time outlet and inlet totals differ by more than two per cent of the
latter and 1e-8; the others exactly when a total differs from the capacity by more than one per cent of it and 1e-8. -/
theorem c217_threshold (cin : ℝ → Fin (p + 1) → ℝ) (Q : ℝ) (out : List (ℝ × ColState r p z)) (outB : List (ℝ × BatchState r p)) :
    (warnOutlet cin out ↔ ∃ x ∈ out, 2 / 100 * |∑ i, cin x.1 i| + 1 / 10 ^ 8 < |∑ i, x.2 0 i (Fin.last z) - ∑ i, cin x.1 i|) ∧
    (warnResin Q out ↔ ∃ x ∈ out, ∃ w, 1 / 100 * |Q| + 1 / 10 ^ 8 < |∑ i, x.2 (Fin.last (r + 1)) i w - Q|) ∧
    (warnBatch Q outB ↔ ∃ x ∈ outB, 1 / 100 * |Q| + 1 / 10 ^ 8 < |∑ i, x.2 1 i - Q|) := by
  have e2 : ∀ a b : ℝ, ¬ npClose 0.02 a b ↔ 2 / 100 * |b| + 1 / 10 ^ 8 < |a - b| := fun a b => by
    unfold npClose
    rw [not_le, show (1e-8 : ℝ) + 0.02 * |b| = 2 / 100 * |b| + 1 / 10 ^ 8 by norm_num; ring]
  have e1 : ∀ a b : ℝ, ¬ npClose 0.01 a b ↔ 1 / 100 * |b| + 1 / 10 ^ 8 < |a - b| := fun a b => by
    unfold npClose
    rw [not_le, show (1e-8 : ℝ) + 0.01 * |b| = 1 / 100 * |b| + 1 / 10 ^ 8 by norm_num; ring]
  unfold warnOutlet warnResin warnBatch
  push Not
  simp only [e1, e2, and_self]

/-- C217. The check of the resin total looks at the start only: after any run of any scheme from any state it warns exactly
when the total at a bead surface was off before the first step. -/
theorem c217_resin (m : ColModel) (P : ColParams r p z) (tH : ℝ) (cin : ℝ → Fin (p + 1) → ℝ) {y0 : ColState r p z}
    {out : List (ℝ × ColState r p z)} (hne : out ≠ [])
    (h : ∀ x ∈ out, Spec.Produced (fun t u => m.rhs P tH (cin t) u) y0 x.2) :
    warnResin P.Q out ↔ ∃ w, ¬ npClose 0.01 (∑ i, y0 (Fin.last (r + 1)) i w) P.Q := by
  have e : ∀ x ∈ out, ∀ w, ∑ i, x.2 (Fin.last (r + 1)) i w = ∑ i, y0 (Fin.last (r + 1)) i w := by
    intro x hx w
    have := c28_schemes m P tH cin (h x hx) (Fin.last r) w
    rwa [Fin.succ_last] at this
  unfold warnResin
  push Not
  constructor
  · rintro ⟨x, hx, w, hw⟩
    exact ⟨w, by rwa [e x hx] at hw⟩
  · rintro ⟨w, hw⟩
    obtain ⟨x, hx⟩ := List.exists_mem_of_ne_nil out hne
    exact ⟨x, hx, w, by rwa [e x hx]⟩

/-- C217. The check for negative concentrations cannot see any but the last stored time. -/
theorem c217_negative (xs : List (ℝ × ColState r p z)) (x : ℝ × ColState r p z) :
    warnNegative (xs ++ [x]) ↔ ∃ a i w, x.2 a i w < 0 := by
  unfold warnNegative
  rw [List.getLast?_concat]
  constructor
  · rintro ⟨x', h, h2⟩
    obtain rfl := Option.some.inj h
    exact h2
  · exact fun h => ⟨x, rfl, h⟩

end

/-! ### The full claim is false -/

/-- One ion, one bead point, bed of two axial points; the influent rises from 1 to 2 meq/L. -/
noncomputable def exRise : ColParams 0 0 1 :=
  ⟨1 / 2, 1, 1, 1, 5, 1 / 4, fun _ => 1, fun _ => 1, fun _ => 1, fun _ => 1, fun _ => 1, ![![-1, 1], ![-1, 1]], fun _ _ => 0, fun _ => 1⟩

noncomputable def exRiseRun (t : ℝ) : ColState 0 0 1 := fun a _ w => if a = 0 then (if w = 0 then 1 else t + Real.exp (-t)) else 5

theorem exRise_solves : Spec.Solves colComp (fun t u => ColModel.hsdm.rhs exRise (1 / 2) (fun _ => 1 + t) u) 0 1 exRiseRun := by
  intro t ht a
  obtain ⟨a, i, w⟩ := a
  have hi : i = 0 := Subsingleton.elim (α := Fin 1) _ _
  subst hi
  have hJ : ∀ w, ColModel.hsdm.flux exRise (setInlet (exRiseRun t) (fun _ => 1 + t)) 0 w = 0 := by
    intro w
    simp [ColModel.flux, fluxJ, implicitRef]
  simp only [colComp]
  induction a using Fin.cases with
  | zero =>
    rw [rhs_eq, assemble_liq]
    by_cases hw : w = 0
    · rw [if_pos hw]
      simp only [exRiseRun, hw, if_true]
      exact hasDerivWithinAt_const _ _ _
    · rw [if_neg hw]
      simp only [exRiseRun, hw, if_true, if_false]
      have h1 : HasDerivAt (fun t : ℝ => t + Real.exp (-t)) (1 + Real.exp (-t) * -1) t :=
        (hasDerivAt_id t).add ((hasDerivAt_neg t).exp)
      refine (h1.congr_deriv ?_).hasDerivWithinAt
      have hw1 : w = 1 := Fin.eq_one_of_ne_zero w hw
      subst hw1
      unfold liqRate
      rw [hJ]
      simp [Fin.sum_univ_two, exRise, setInlet, exRiseRun]
      ring
  | succ k =>
    rw [rhs_eq, assemble_bead, hJ]
    have hk : k = Fin.last 0 := Subsingleton.elim (α := Fin 1) _ _
    rw [if_pos hk]
    simp only [exRiseRun, Fin.succ_ne_zero, if_false]
    simpa using hasDerivWithinAt_const t (Icc 0 1) (5:ℝ)

/-- C217 does not hold: while the influent rises, the outlet follows later, and the exact run is reported as wrong. -/
theorem c217_false : ¬ C217 := by
  intro h
  have hg : Spec.CodeGrid exRise := by
    refine ⟨fun w => ?_, by norm_num [exRise], by norm_num [exRise]⟩
    fin_cases w <;> simp [exRise, Fin.sum_univ_two]
  have h2 : exRiseRun 0 = colInit exRise.Q (fun _ => 1 + |(0:ℝ)|) none := by
    funext a i w
    have hi : i = 0 := Subsingleton.elim (α := Fin 1) _ _
    subst hi
    by_cases ha : a = 0
    · by_cases hw : w = 0
      · simp [exRiseRun, colInit, ha, hw]
      · simp [exRiseRun, colInit, ha, hw]
    · simp [exRiseRun, colInit, ha, exRise]
  have h3 : Spec.Solves colComp (fun t u => ColModel.hsdm.rhs exRise (1 / 2) (fun _ => 1 + |t|) u) 0 1 exRiseRun := by
    intro t ht
    have := exRise_solves t ht
    simp only [abs_of_nonneg ht.1]
    exact this
  have h4 : Spec.Sampled exRiseRun 1 [(1, exRiseRun 1)] := by
    intro x hx
    rw [List.mem_singleton] at hx
    rw [hx]
    exact ⟨⟨zero_le_one, le_rfl⟩, rfl⟩
  have h1 := (h 0 0 0 .hsdm exRise (1 / 2) (fun t _ => 1 + |t|) 1 exRiseRun [(1, exRiseRun 1)] hg (by norm_num)
    (fun t i => by positivity) (by fun_prop) h2 h3 h4).1
  apply h1
  unfold warnOutlet
  push Not
  refine ⟨_, List.mem_singleton.2 rfl, ?_⟩
  unfold npClose
  have e : Real.exp (-1) < 0.3678794412 := Real.exp_neg_one_lt_d9
  have e1 : ∑ i : Fin (0 + 1), exRiseRun 1 0 i (Fin.last (0 + 1)) = 1 + Real.exp (-1) := by
    rw [Fin.sum_univ_one]; rfl
  have e2 : ∑ i : Fin (0 + 1), (1 + |(1:ℝ)|) = 2 := by
    rw [Fin.sum_univ_one, abs_one]; norm_num
  simp only [e1, e2]
  rw [abs_of_neg (by linarith), not_le]
  norm_num
  linarith

/-! ### Batch contactors -/

section
variable {r p : ℕ}

/-- The equilibrium of the batch models sums to the total concentration wherever the formulas are regular. -/
theorem ceqB_total {K : Fin (p + 1) → ℝ} {val : Fin (p + 1) → ℕ} {q : Fin (p + 1) → ℝ} {CT : ℝ} (hK : ∀ i, K i ≠ 0)
    (hv0 : val 0 = 1) (hval : ∀ i, val i = 1 ∨ val i = 2) (h : Spec.EqRegularB K val q CT) :
    ∑ i, ceqB K val q CT i = CT := by
  unfold Spec.EqRegularB at h
  unfold ceqB
  by_cases hdv : ∃ i, val i = 2
  · rw [if_pos hdv] at h
    obtain ⟨h0, h1, h2⟩ := h
    simp only [if_pos hdv]
    set a := eqAA K val q with ha
    set b := eqBB K val q with hb
    set c := (-b + Real.sqrt (b ^ 2 - 4 * a * -CT)) / (2 * a) with hc
    have hroot : a * c ^ 2 + b * c = CT := by
      have hs : Real.sqrt (b ^ 2 - 4 * a * -CT) ^ 2 = b ^ 2 - 4 * a * -CT := Real.sq_sqrt (by linarith)
      have e : 2 * a * c = -b + Real.sqrt (b ^ 2 - 4 * a * -CT) := by
        rw [hc]; field_simp
      have e2 : Real.sqrt (b ^ 2 - 4 * a * -CT) = 2 * a * c + b := by linarith
      rw [e2] at hs
      have : 4 * a * (a * c ^ 2 + b * c - CT) = 0 := by linear_combination hs
      have h3 := (mul_eq_zero.1 this).resolve_left (mul_ne_zero four_ne_zero h2)
      linarith
    have hterm : ∀ i, ceqOfRef K val q c i = (if i = 0 then c else 0) +
        (if val i = 1 ∧ i ≠ 0 then q i / K i else 0) * (c / q 0) + (if val i = 2 then q i / K i else 0) * (c / q 0) ^ 2 := by
      intro i
      unfold ceqOfRef
      by_cases hi : i = 0
      · subst hi
        simp [hv0]
      · rcases hval i with h | h <;> simp [hi, h]
    simp only [hterm]
    rw [Finset.sum_add_distrib, Finset.sum_add_distrib, ← Finset.sum_mul, ← Finset.sum_mul]
    simp only [Finset.sum_ite_eq', Finset.mem_univ, if_true]
    have ea : (∑ i, if val i = 2 then q i / K i else 0) = a * q 0 ^ 2 := by
      rw [ha]; unfold eqAA; field_simp
    have eb : (∑ i, if val i = 1 ∧ i ≠ 0 then q i / K i else 0) = (b - 1) * q 0 := by
      rw [hb]; unfold eqBB; field_simp; ring
    rw [ea, eb, ← hroot]
    field_simp
    ring
  · rw [if_neg hdv] at h
    simp only [if_neg hdv]
    unfold ceqMv alphaMat
    have e : ∀ i, ∑ j, K i / K j * q j = K i * ∑ j, q j / K j := by
      intro i
      rw [Finset.mul_sum]
      exact Finset.sum_congr rfl fun j _ => by ring
    have hne : ∑ j, q j / K j ≠ 0 := by
      intro h0
      have := h 0
      rw [e, h0, mul_zero] at this
      exact this rfl
    have e2 : ∀ i, q i * CT / ∑ j, K i / K j * q j = q i / K i * (CT / ∑ j, q j / K j) := by
      intro i
      rw [e]
      have := hK i
      field_simp
    simp only [e2]
    rw [← Finset.sum_mul]
    field_simp

/-- Rate of the totals of a batch run that deviate by `s`. -/
noncomputable def batchDev (P : BatchParams r p) (s : Fin (r + 2) → ℝ) : Fin (r + 2) → ℝ := fun a =>
  Fin.cases (3 * P.VR / P.rb * (-P.kL * s 0) / P.VL)
    (fun k => if k = Fin.last r then
        (-(-P.kL * s 0) / P.rb - ∑ k' : Fin r, P.Wr k'.castSucc * (P.Ds / P.rb ^ 2 * ∑ l, P.Br k'.castSucc l * s l.succ)) /
          P.Wr (Fin.last r)
      else P.Ds / P.rb ^ 2 * ∑ l, P.Br k l * s l.succ) a

theorem batchAssemble_sum (P : BatchParams r p) (J : Fin (p + 1) → ℝ) (dq : Fin (r + 1) → Fin (p + 1) → ℝ)
    {s : Fin (r + 2) → ℝ} (hJ : ∑ i, J i = -P.kL * s 0) (hq : ∀ k, ∑ i, dq k i = P.Ds / P.rb ^ 2 * ∑ l, P.Br k l * s l.succ)
    (a : Fin (r + 2)) : ∑ i, batchAssemble P J dq a i = batchDev P s a := by
  unfold batchAssemble batchDev
  induction a using Fin.cases with
  | zero =>
    simp only [Fin.cases_zero]
    rw [← Finset.sum_div, ← Finset.mul_sum, hJ]
  | succ k =>
    simp only [Fin.cases_succ]
    split
    · rw [← Finset.sum_div, Finset.sum_sub_distrib, ← Finset.sum_div, Finset.sum_neg_distrib, hJ, Finset.sum_comm]
      simp only [← Finset.mul_sum, hq]
    · exact hq k

/-- C217. In an exact batch run the total in the water and the total at every bead point stay what they were. -/
theorem c217_batch_totals (m : BatchModel) (P : BatchParams r p) (hB : ∀ k, ∑ l, P.Br k l = 0) (hK : ∀ i, P.K i ≠ 0)
    (hv0 : P.val 0 = 1) (hval : ∀ i, P.val i = 1 ∨ P.val i = 2) {T : ℝ} {y : ℝ → BatchState r p} (hy : m.Runs P 0 T y)
    (hreg : ∀ t ∈ Icc 0 T, m.Regular P (y t)) (hC : ∑ i, y 0 0 i = ∑ i, P.C0 i) {q : ℝ}
    (hq : ∀ k : Fin (r + 1), ∑ i, y 0 k.succ i = q) {t : ℝ} (ht : t ∈ Icc 0 T) :
    ∑ i, y t 0 i = ∑ i, P.C0 i ∧ ∀ k : Fin (r + 1), ∑ i, y t k.succ i = q := by
  have hF : LocallyLipschitz (batchDev P) := by
    refine ContDiff.locallyLipschitz (𝕂 := ℝ) (contDiff_pi.2 fun a => ?_)
    unfold batchDev
    induction a using Fin.cases with
    | zero => simp only [Fin.cases_zero]; fun_prop
    | succ k =>
      simp only [Fin.cases_succ]
      split
      · fun_prop
      · fun_prop
  let base : Fin (r + 2) → ℝ := fun a => Fin.cases (∑ i, P.C0 i) (fun _ => q) a
  let s : ℝ → Fin (r + 2) → ℝ := fun t a => ∑ i, y t a i - base a
  have hlap : ∀ (t : ℝ) (k : Fin (r + 1)), ∑ i, ∑ l, P.Br k l * y t l.succ i = ∑ l, P.Br k l * s t l.succ := by
    intro t k
    rw [Finset.sum_comm]
    simp only [← Finset.mul_sum, s, base, Fin.cases_succ, mul_sub]
    rw [Finset.sum_sub_distrib, ← Finset.sum_mul, hB, zero_mul, sub_zero]
  have hfield : ∀ t ∈ Icc 0 T, ∀ a, ∑ i, m.field P (y t) a i = batchDev P (s t) a := by
    intro t ht a
    have hr := hreg t ht
    cases m
    · refine batchAssemble_sum P _ _ ?_ (fun k => ?_) a
      · rw [← Finset.mul_sum, Finset.sum_sub_distrib, ceqB_total hK hv0 hval hr]
        simp only [s, base, Fin.cases_zero]
      · rw [← Finset.mul_sum, hlap]
    · have hc : ∀ l : Fin (r + 1), ∑ i, ceqB P.K P.val (fun i => y t l.succ i / (1 - P.EPOR)) (∑ i, P.C0 i) i = ∑ i, P.C0 i :=
        fun l => ceqB_total hK hv0 hval (hr l)
      refine batchAssemble_sum P _ _ ?_ (fun k => ?_) a
      · rw [← Finset.mul_sum, Finset.sum_sub_distrib, hc]
        simp only [s, base, Fin.cases_zero]
      · rw [← Finset.sum_div, Finset.sum_add_distrib, ← Finset.mul_sum, ← Finset.mul_sum, hlap, Finset.sum_comm]
        simp only [← Finset.mul_sum, hc]
        rw [← Finset.sum_mul, hB]
        ring
  have hs : ∀ t ∈ Icc 0 T, HasDerivWithinAt s (batchDev P (s t)) (Icc 0 T) t := by
    intro t ht
    refine hasDerivWithinAt_pi.2 fun a => ?_
    have h1 := runs_field hy t ht
    have h2 : HasDerivWithinAt (fun t => ∑ i, y t a i) (∑ i, m.field P (y t) a i) (Icc 0 T) t :=
      HasDerivWithinAt.fun_sum fun i _ => hasDerivWithinAt_pi.1 (hasDerivWithinAt_pi.1 h1 a) i
    rw [hfield t ht a] at h2
    exact h2.sub_const _
  have hz : ∀ t ∈ Icc 0 T, HasDerivWithinAt (fun _ : ℝ => (0 : Fin (r + 2) → ℝ)) (batchDev P 0) (Icc 0 T) t := by
    intro t _
    have : batchDev P 0 = 0 := by
      funext a
      unfold batchDev
      induction a using Fin.cases with
      | zero => simp
      | succ k => simp
    rw [this]
    exact hasDerivWithinAt_const _ _ _
  have hs0 : s 0 = 0 := by
    funext a
    simp only [s, base]
    induction a using Fin.cases with
    | zero => simp [hC]
    | succ k => simp [hq]
  have key := unique_auto hF hs hz hs0 t ht
  refine ⟨?_, fun k => ?_⟩
  · have := congrFun key 0
    simp only [s, base, Fin.cases_zero, Pi.zero_apply] at this
    linarith
  · have := congrFun key k.succ
    simp only [s, base, Fin.cases_succ, Pi.zero_apply] at this
    linarith

/-- C217. After an exact batch run as the code starts it the check passes. -/
theorem c217_batch (m : BatchModel) (P : BatchParams r p) (hB : ∀ k, ∑ l, P.Br k l = 0) (hK : ∀ i, P.K i ≠ 0)
    (hv0 : P.val 0 = 1) (hval : ∀ i, P.val i = 1 ∨ P.val i = 2) {T : ℝ} {y : ℝ → BatchState r p} (h0 : y 0 = batchInit P)
    (hy : m.Runs P 0 T y) (hreg : ∀ t ∈ Icc 0 T, m.Regular P (y t)) {out : List (ℝ × BatchState r p)}
    (ho : Spec.Sampled y T out) : ¬ warnBatch (P.RHOP * P.Qm) out := by
  unfold warnBatch
  push Not
  intro x hx
  obtain ⟨h1, h2⟩ := ho x hx
  have h3 := c33_batch P (by rw [hv0]; decide)
  have h4 := c217_batch_totals m P hB hK hv0 hval hy hreg (by rw [h0]; exact Finset.sum_congr rfl fun i _ => h3.2 i)
    (q := P.RHOP * P.Qm) (fun k => by rw [h0]; exact h3.1 k) h1
  rw [h2]
  have : (1 : Fin (r + 2)) = (0 : Fin (r + 1)).succ := rfl
  rw [this, h4.2]
  exact npClose_self (by norm_num)

end

/-- A run with a constant influent of two ions, to which the checks apply. -/
example (m : ColModel) : ∃ (P : ColParams 0 1 1) (T : ℝ) (y : ℝ → ColState 0 1 1), Spec.CodeGrid P ∧ 0 < T ∧
    y 0 = colInit P.Q ![1, 1] none ∧ Spec.Solves colComp (fun _ u => m.rhs P 7 ![1, 1] u) 0 T y ∧
    ¬ warnOutlet (fun _ => ![1, 1]) [(0, y 0), (T, y T)] ∧ ¬ warnResin P.Q [(0, y 0), (T, y T)] := by
  let P : ColParams 0 1 1 :=
    ⟨1 / 2, 1, 1, 1, 2, 1 / 4, ![1, 1], ![1, 1], ![2, 2], ![1, 3], ![1, 2], ![![-1, 1], ![-1, 1]], 0, ![1]⟩
  have hP : Spec.CodeGrid P := by
    refine ⟨fun w => ?_, by norm_num [P], by norm_num [P]⟩
    fin_cases w <;> simp [P, Fin.sum_univ_two]
  have hK : ∀ i, 0 < P.K i := by intro i; fin_cases i <;> simp [P]
  have hs : (0:ℝ) ≤ ∑ j, (![1, 1] : Fin 2 → ℝ) j := by rw [Fin.sum_univ_two]; norm_num
  obtain ⟨T, hT, -, y, hy0, hy⟩ := c209_start m P hK rfl rfl (by norm_num [P]) (by norm_num [P]) 7
    (cin := fun _ => ![1, 1]) (t1 := 5) (by norm_num) continuousOn_const hs
  have h := c217_partial m P hP 7 (cin := fun _ => ![1, 1]) (CT := 2) (fun t _ => by rw [Fin.sum_univ_two]; norm_num) hy0 hy
    (out := [(0, y 0), (T, y T)]) (by
      intro x hx
      simp only [List.mem_cons, List.not_mem_nil, or_false] at hx
      rcases hx with rfl | rfl
      · exact ⟨⟨le_rfl, hT.le⟩, rfl⟩
      · exact ⟨⟨hT.le, le_rfl⟩, rfl⟩)
  exact ⟨P, T, y, hP, hT, hy0, hy, h.1, h.2⟩

/-- And a batch run in which one ion replaces another. -/
example : ∃ (P : BatchParams 0 1) (T : ℝ) (y : ℝ → BatchState 0 1), P.C0 1 = 1 ∧ 0 < T ∧ y 0 = batchInit P ∧
    BatchModel.hsdm.Runs P 0 T y ∧ ¬ warnBatch (P.RHOP * P.Qm) [(0, y 0), (T, y T)] := by
  let P : BatchParams 0 1 := ⟨1, 5, 1 / 2, 1, 1, 1, 2, 1, 1 / 10, ![2, 1], ![1, 3], ![1, 1], 0, ![1]⟩
  have hK : ∀ i, 0 < P.K i := by intro i; fin_cases i <;> simp [P]
  have hC : 0 ≤ ∑ j, P.C0 j := Finset.sum_nonneg fun i _ => by fin_cases i <;> simp [P]
  have hval : ∀ i, P.val i = 1 := by intro i; fin_cases i <;> rfl
  have hn : (Finset.univ.filter (fun j => P.val j = 2)).card < 1000 := lt_of_le_of_lt (Finset.card_le_univ _) (by simp)
  obtain ⟨t2, ht2, -, y, hy0, hy⟩ := c209_batch_start .hsdm P hK rfl rfl (by norm_num [P]) (by norm_num [P]) hC hn
    (t1 := 5) (by norm_num)
  have hno : ¬ ∃ i, P.val i = 2 := by rintro ⟨i, hi⟩; rw [hval] at hi; cases hi
  have h0t : (0:ℝ) ∈ Icc 0 t2 := ⟨le_rfl, ht2.le⟩
  have hcont : ContinuousWithinAt y (Icc 0 t2) 0 := (runs_field hy 0 h0t).continuousWithinAt
  have hr0 := batch_start_regular .hsdm P hK rfl rfl (by norm_num [P]) (by norm_num [P]) hC hn
  rw [← hy0] at hr0
  simp only [BatchModel.Regular, Spec.EqRegularB, if_neg hno] at hr0
  have hev : ∀ᶠ t in nhdsWithin 0 (Icc 0 t2), ∀ i, ∑ j, P.K i / P.K j * y t (Fin.last 1) j ≠ 0 := by
    refine Filter.eventually_all.2 fun i => ?_
    refine Filter.Tendsto.eventually_ne ?_ (hr0 i)
    refine tendsto_finsetSum _ fun j _ => ?_
    have h2 : ContinuousWithinAt (fun t => y t (Fin.last 1) j) (Icc 0 t2) 0 :=
      continuousWithinAt_pi.1 (continuousWithinAt_pi.1 hcont (Fin.last 1)) j
    exact continuousWithinAt_const.mul h2
  obtain ⟨ε, hε, hball⟩ := Metric.mem_nhdsWithin_iff.1 hev
  have hm : 0 < min (ε / 2) t2 := lt_min (by linarith) ht2
  set T := min (ε / 2) t2 with hT
  have hsub : Icc 0 T ⊆ Icc 0 t2 := Icc_subset_Icc_right (min_le_right _ _)
  have hy' : BatchModel.hsdm.Runs P 0 T y := by
    intro t ht
    obtain ⟨d, h1, h2⟩ := hy t (hsub ht)
    exact ⟨d, h1, fun a i => (h2 a i).mono hsub⟩
  have hreg : ∀ t ∈ Icc 0 T, BatchModel.hsdm.Regular P (y t) := by
    intro t ht
    have h1 : T < ε := by
      have := min_le_left (ε / 2) t2
      rw [← hT] at this; linarith
    have := hball (show t ∈ Metric.ball 0 ε ∩ Icc 0 t2 from
      ⟨by rw [Metric.mem_ball, Real.dist_eq, sub_zero, abs_of_nonneg ht.1]; exact ht.2.trans_lt h1, hsub ht⟩)
    simp only [BatchModel.Regular, Spec.EqRegularB, if_neg hno]
    exact this
  refine ⟨P, T, y, by simp [P], hm, hy0, hy', c217_batch .hsdm P (fun k => by simp [P]) (fun i => (hK i).ne') rfl
    (fun i => Or.inl (hval i)) hy0 hy' hreg ?_⟩
  intro x hx
  simp only [List.mem_cons, List.not_mem_nil, or_false] at hx
  rcases hx with rfl | rfl
  · exact ⟨⟨le_rfl, hm.le⟩, rfl⟩
  · exact ⟨⟨hm.le, le_rfl⟩, rfl⟩

end WTM
