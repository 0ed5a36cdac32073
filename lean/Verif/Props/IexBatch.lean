import Mathlib.Tactic.Linarith
import Mathlib.Tactic.FieldSimp
import Mathlib.Algebra.BigOperators.Field
import Verif.Model.IexBatch
import Verif.Lemmas.Ode
import Verif.Props.Equil

/-! Properties C32 and C33 (batch part): the ion-exchange batch models. -/
set_option autoImplicit false
namespace WTM
open BigOperators

variable {r p : ℕ}

/-- The two batch models. -/
inductive BatchModel
  | hsdm
  | psdm

/-- `diffun` of the chosen batch model. -/
noncomputable def BatchModel.rhs (m : BatchModel) (P : BatchParams r p) (u : BatchState r p) :
    Option (BatchState r p) :=
  match m with
  | .hsdm => hsdmBatchRhs P u
  | .psdm => psdmBatchRhs P u

/-- Both are an assembly of some flux and some bead rates. -/
theorem batch_form (m : BatchModel) (P : BatchParams r p) (u d : BatchState r p)
    (h : m.rhs P u = some d) : ∃ J dq, d = batchAssemble P J dq := by
  cases m
  · simp only [BatchModel.rhs, hsdmBatchRhs, Option.map_eq_some_iff] at h
    obtain ⟨Ceq, -, hd⟩ := h
    exact ⟨_, _, hd.symm⟩
  · simp only [BatchModel.rhs, psdmBatchRhs] at h
    split at h
    · exact ⟨_, _, (Option.some.inj h).symm⟩
    · cases h

/-- Amount of ion `i` in the system: water plus beads. -/
noncomputable def batchAmount (P : BatchParams r p) (u : BatchState r p) (i : Fin (p + 1)) : ℝ :=
  P.VL * u 0 i + 3 * P.VR * ∑ k : Fin (r + 1), P.Wr k * u k.succ i

/-- C32. For every state at which the rates exist, the amount of each ion (water plus beads) has rate
zero. -/
theorem c32_conserved (m : BatchModel) (P : BatchParams r p) (hVL : P.VL ≠ 0)
    (hW : P.Wr (Fin.last r) ≠ 0) {u d : BatchState r p} (h : m.rhs P u = some d) (i : Fin (p + 1)) :
    batchAmount P d i = 0 := by
  obtain ⟨J, dq, rfl⟩ := batch_form m P u d h
  unfold batchAmount
  rw [Fin.sum_univ_castSucc]
  have hne : ∀ k : Fin r, k.castSucc ≠ Fin.last r := fun k => (Fin.castSucc_lt_last k).ne
  have h0 : batchAssemble P J dq 0 i = 3 * P.VR / P.rb * J i / P.VL := rfl
  have h1 : ∀ k : Fin r, batchAssemble P J dq k.castSucc.succ i = dq k.castSucc i := by
    intro k
    show (if k.castSucc = Fin.last r then _ else dq k.castSucc i) = _
    rw [if_neg (hne k)]
  have h2 : batchAssemble P J dq (Fin.last r).succ i =
      (-J i / P.rb - ∑ k' : Fin r, P.Wr k'.castSucc * dq k'.castSucc i) / P.Wr (Fin.last r) := by
    show (if Fin.last r = Fin.last r then _ else _) = _
    rw [if_pos rfl]
  rw [h0, h2]
  simp only [h1]
  rw [mul_div_cancel₀ _ hW, mul_div_cancel₀ _ hVL]
  ring

/-- Component of a batch state. -/
def batchComp (a : Fin (r + 2) × Fin (p + 1)) (u : BatchState r p) : ℝ := u a.1 a.2

/-- C32. Along every exact solution the amount of each ion is constant. -/
theorem c32_solutions (m : BatchModel) (P : BatchParams r p) (hVL : P.VL ≠ 0)
    (hW : P.Wr (Fin.last r) ≠ 0) {F : ℝ → BatchState r p → BatchState r p} {t0 t1 : ℝ}
    {y : ℝ → BatchState r p} (h : Spec.Solves batchComp F t0 t1 y)
    (hF : ∀ t ∈ Set.Icc t0 t1, m.rhs P (y t) = some (F t (y t))) {t : ℝ} (ht : t ∈ Set.Icc t0 t1)
    (i : Fin (p + 1)) : batchAmount P (y t) i = batchAmount P (y t0) i := by
  have key := solves_invariant h (κ := Fin (r + 2))
    (fun a => Fin.cases P.VL (fun k => 3 * P.VR * P.Wr k) a) (fun a => (a, i))
    (fun s hs => by
      have := c32_conserved m P hVL hW (hF s hs) i
      unfold batchAmount at this
      rw [Fin.sum_univ_succ]
      simp only [batchComp, Fin.cases_zero, Fin.cases_succ]
      rw [Finset.mul_sum] at this
      rw [← this]
      congr 1
      exact Finset.sum_congr rfl (fun k _ => by ring)) ht
  simp only [Fin.sum_univ_succ (n := r + 1), batchComp, Fin.cases_zero, Fin.cases_succ] at key
  unfold batchAmount
  rw [Finset.mul_sum, Finset.mul_sum]
  simpa only [mul_assoc] using key

/-- Totals have rate zero when the equilibrium concentrations sum to the total. -/
theorem batch_totals (m : BatchModel) (P : BatchParams r p) (hB : ∀ k, ∑ l, P.Br k l = 0)
    {u d : BatchState r p} (h : m.rhs P u = some d) {Q : ℝ}
    (hC : ∑ i, u 0 i = ∑ i, P.C0 i) (hQ : ∀ k : Fin (r + 1), ∑ i, u k.succ i = Q)
    (hCeq : ∀ q Ceq, ceqBatch P.K P.val q (∑ i, P.C0 i) = some Ceq →
      (∃ k, q = (match m with
        | .hsdm => u (Fin.succ k)
        | .psdm => fun i => u (Fin.succ k) i / (1 - P.EPOR))) → ∑ i, Ceq i = ∑ i, P.C0 i) :
    ∑ i, d 0 i = 0 ∧ ∀ k : Fin (r + 1), ∑ i, d k.succ i = 0 := by
  have key : ∀ (J : Fin (p + 1) → ℝ) (dq : Fin (r + 1) → Fin (p + 1) → ℝ), ∑ i, J i = 0 →
      (∀ k, ∑ i, dq k i = 0) → ∑ i, batchAssemble P J dq 0 i = 0 ∧
      ∀ k : Fin (r + 1), ∑ i, batchAssemble P J dq k.succ i = 0 := by
    intro J dq hJ hdq
    refine ⟨?_, fun k => ?_⟩
    · show ∑ i, 3 * P.VR / P.rb * J i / P.VL = 0
      rw [← Finset.sum_div, ← Finset.mul_sum, hJ]; simp
    · show ∑ i, (if k = Fin.last r then _ else _) = 0
      by_cases hk : k = Fin.last r
      · simp only [hk, if_true]
        rw [← Finset.sum_div, Finset.sum_sub_distrib, ← Finset.sum_div, Finset.sum_neg_distrib, hJ,
          Finset.sum_comm]
        simp only [← Finset.mul_sum, hdq]
        simp
      · simp only [hk, if_false]
        exact hdq k
  have hlap : ∀ (f : Fin (r + 1) → Fin (p + 1) → ℝ) (c : ℝ), (∀ l, ∑ i, f l i = c) → ∀ k,
      ∑ i, ∑ l, P.Br k l * f l i = 0 := by
    intro f c hf k
    rw [Finset.sum_comm]
    simp only [← Finset.mul_sum, hf]
    rw [← Finset.sum_mul, hB, zero_mul]
  cases m
  · simp only [BatchModel.rhs, hsdmBatchRhs, Option.map_eq_some_iff] at h
    obtain ⟨Ceq, hc, rfl⟩ := h
    refine key _ _ ?_ (fun k => ?_)
    · rw [← Finset.mul_sum, Finset.sum_sub_distrib, hC,
        hCeq _ Ceq hc ⟨Fin.last r, by simp [Fin.succ_last]⟩]
      simp
    · rw [← Finset.mul_sum, hlap (fun l i => u l.succ i) Q hQ, mul_zero]
  · simp only [BatchModel.rhs, psdmBatchRhs] at h
    split at h
    · rename_i hs
      obtain rfl := Option.some.inj h
      have hsum : ∀ k : Fin (r + 1), ∑ i, (ceqBatch P.K P.val (fun i => u k.succ i / (1 - P.EPOR))
          (∑ i, P.C0 i)).get (hs k) i = ∑ i, P.C0 i := fun k =>
        hCeq _ _ (by simp) ⟨k, rfl⟩
      refine key _ _ ?_ (fun k => ?_)
      · rw [← Finset.mul_sum, Finset.sum_sub_distrib, hC, hsum]
        simp
      · rw [← Finset.sum_div, Finset.sum_add_distrib, ← Finset.mul_sum, ← Finset.mul_sum,
          hlap (fun l i => u l.succ i) Q hQ,
          hlap (fun l i => (ceqBatch P.K P.val (fun i => u l.succ i / (1 - P.EPOR))
            (∑ i, P.C0 i)).get (hs l) i) _ hsum]
        simp
    · cases h

/-- The batch equilibrium of ions of valence 1 and 2 sums to the total, as `batch_totals` asks. -/
theorem ceqBatch_sum {K : Fin (p + 1) → ℝ} {val : Fin (p + 1) → ℕ} {q Ceq : Fin (p + 1) → ℝ} {CT : ℝ}
    (h : DvOk K val q) (hval : ∀ i, val i = 1 ∨ val i = 2) (hCT : 0 < CT)
    (hc : ceqBatch K val q CT = some Ceq) : ∑ i, Ceq i = CT := by
  by_cases hdv : ∃ i, val i = 2
  · by_cases hz : ∃ i, val i = 2 ∧ q i ≠ 0
    · rw [c25_same h hz hCT.le] at hc
      rw [← Option.some.inj hc]
      exact (c23_divalent h hval hdv hCT).1
    · push Not at hz
      rw [(c25_no_divalent_loaded h hdv hz hval hCT.le).1] at hc
      cases hc
  · have hne : ∀ i, val i ≠ 2 := fun i hi => hdv ⟨i, hi⟩
    have e : ceqBatch K val q CT = some (ceq K val q CT) := by
      unfold ceqBatch ceq; rw [if_neg hdv, if_neg hdv]
    rw [e] at hc
    rw [← Option.some.inj hc]
    exact (c22_monovalent h.Kpos h.qnonneg ⟨0, h.qref.ne'⟩ hCT.le hne).1

/-- C32. Ions of valence 1 or 2: when the water holds the initial total and the resin total is the same at
all bead points, the total water concentration and the resin total everywhere have rate zero. -/
theorem c32_totals (m : BatchModel) (P : BatchParams r p) (hB : ∀ k, ∑ l, P.Br k l = 0)
    {u d : BatchState r p} (h : m.rhs P u = some d) {Q : ℝ}
    (hC : ∑ i, u 0 i = ∑ i, P.C0 i) (hQ : ∀ k : Fin (r + 1), ∑ i, u k.succ i = Q)
    (hCT : 0 < ∑ i, P.C0 i) (hE : P.EPOR < 1) (hval : ∀ i, P.val i = 1 ∨ P.val i = 2)
    (hok : ∀ k : Fin (r + 1), DvOk P.K P.val (u k.succ)) :
    ∑ i, d 0 i = 0 ∧ ∀ k : Fin (r + 1), ∑ i, d k.succ i = 0 := by
  refine batch_totals m P hB h hC hQ ?_
  intro q Ceq hc hq
  obtain ⟨k, hk⟩ := hq
  refine ceqBatch_sum (K := P.K) (val := P.val) (q := q) ?_ hval hCT hc
  have h1 := hok k
  have hpos : 0 < 1 - P.EPOR := by linarith
  cases m
  · rw [hk]; exact h1
  · rw [hk]
    exact ⟨h1.Kpos, h1.Kref, fun i => div_nonneg (h1.qnonneg i) hpos.le, div_pos h1.qref hpos, h1.valRef⟩

/-! ### C33 -/

/-- C33. Batch: with a monovalent presaturant the initial resin total is `Q = RHOP*Qm` at every bead
point (with or without divalent ions), and the water holds `C0`. -/
theorem c33_batch (P : BatchParams r p) (h0 : P.val 0 ≠ 2) :
    (∀ k : Fin (r + 1), ∑ i, batchInit P k.succ i = P.RHOP * P.Qm) ∧
    ∀ i, batchInit P 0 i = P.C0 i := by
  refine ⟨fun k => ?_, fun i => by simp [batchInit]⟩
  unfold batchInit
  simp only [Fin.succ_ne_zero, if_false]
  by_cases hdv : ∃ j, P.val j = 2
  · simp only [if_pos hdv]
    have h1 : ∀ i, (if i = 0 then P.RHOP * P.Qm -
          ((Finset.univ.filter (fun j => P.val j = 2)).card : ℝ) * (P.RHOP * P.Qm) / 1e3
        else if P.val i = 2 then P.RHOP * P.Qm / 1e3 else 0) =
        (if i = 0 then P.RHOP * P.Qm -
          ((Finset.univ.filter (fun j => P.val j = 2)).card : ℝ) * (P.RHOP * P.Qm) / 1e3 else 0) +
        (if P.val i = 2 then P.RHOP * P.Qm / 1e3 else 0) := by
      intro i
      by_cases hi : i = 0
      · subst hi; simp [h0]
      · simp [hi]
    rw [Finset.sum_congr rfl (fun i _ => h1 i), Finset.sum_add_distrib, Finset.sum_ite_eq',
      if_pos (Finset.mem_univ _), ← Finset.sum_filter, Finset.sum_const, nsmul_eq_mul]
    ring
  · simp only [if_neg hdv]
    simp

/-- C33, finding: with a divalent presaturant the seeding overwrites itself and the initial resin total is
`Q - Q/1000`, not `Q`. -/
theorem c33_divalent_presaturant (P : BatchParams r p) (h0 : P.val 0 = 2) (k : Fin (r + 1)) :
    ∑ i, batchInit P k.succ i = P.RHOP * P.Qm - P.RHOP * P.Qm / 1e3 := by
  unfold batchInit
  simp only [Fin.succ_ne_zero, if_false]
  have hdv : ∃ j, P.val j = 2 := ⟨0, h0⟩
  simp only [if_pos hdv]
  have h1 : ∀ i, (if i = 0 then P.RHOP * P.Qm -
        ((Finset.univ.filter (fun j => P.val j = 2)).card : ℝ) * (P.RHOP * P.Qm) / 1e3
      else if P.val i = 2 then P.RHOP * P.Qm / 1e3 else 0) =
      (if i = 0 then P.RHOP * P.Qm -
        ((Finset.univ.filter (fun j => P.val j = 2)).card : ℝ) * (P.RHOP * P.Qm) / 1e3
          - P.RHOP * P.Qm / 1e3 else 0) +
      (if P.val i = 2 then P.RHOP * P.Qm / 1e3 else 0) := by
    intro i
    by_cases hi : i = 0
    · subst hi; simp [h0]
    · simp [hi]
  rw [Finset.sum_congr rfl (fun i _ => h1 i), Finset.sum_add_distrib, Finset.sum_ite_eq',
    if_pos (Finset.mem_univ _), ← Finset.sum_filter, Finset.sum_const, nsmul_eq_mul]
  ring

/-- A batch system meeting the hypotheses: three ions, one divalent, two bead points. -/
example : ∃ P : BatchParams 1 2, P.VL ≠ 0 ∧ P.Wr (Fin.last 1) ≠ 0 ∧ P.val 0 ≠ 2 ∧ (∃ j, P.val j = 2) ∧
    (BatchModel.hsdm.rhs P (batchInit P)).isSome := by
  let P : BatchParams 1 2 := ⟨1, 1000, 0, 1, 1, 1, 1, 1, 1, ![1, 1, 1], ![1, 1, 1], ![1, 1, 2], 0, ![1, 1]⟩
  refine ⟨P, one_ne_zero, one_ne_zero, by decide, ⟨2, rfl⟩, ?_⟩
  have hdv : ∃ j, P.val j = 2 := ⟨2, rfl⟩
  have ha : eqAA P.K P.val (batchInit P (Fin.last 2)) ≠ 0 := by
    have hb : ∀ i, batchInit P (Fin.last 2) i = if i = 0 then 999 else if i = 2 then 1 else 0 := by
      intro i
      have hc : (Finset.univ.filter (fun j => P.val j = 2)).card = 1 := by decide
      unfold batchInit
      rw [if_neg (by decide), if_pos hdv]
      simp only [hc]
      fin_cases i
      · simp [P]; norm_num
      · simp [P]
      · simp [P]; norm_num
    unfold eqAA
    rw [Fin.sum_univ_three]
    simp only [hb]
    simp [P]
  simp only [BatchModel.rhs, hsdmBatchRhs, ceqBatch, if_pos hdv, refConcBatch, if_neg ha]
  simp

end WTM
