import Verif.Props.IexColumn
import Verif.Props.IexBatch

/-! Properties C90 and C91: diffusion inside the resin bead, and the split of its content. -/
set_option autoImplicit false
namespace WTM
open BigOperators

variable {r p z : ℕ}

/-- Specification of one interior bead rate: pore diffusion in the pore water (volume fraction `eps`) plus
surface diffusion of the adsorbed ions (the rest), `lapC` and `lapQ` being the radial operator applied to
the pore concentration and to the adsorbed loading per solid volume. -/
noncomputable def Spec.beadRate (eps Dp Ds rb lapC lapQ : ℝ) : ℝ :=
  (eps * Dp * lapC + (1 - eps) * Ds * lapQ) / rb ^ 2

/-- C90. Homogeneous model: interior rates of every ion but the reference are surface diffusion of the whole
loading; the reference ion balances the others. -/
theorem c90_hsdm (P : ColParams r p z) (tH : ℝ) (cin : Fin (p + 1) → ℝ) (u : ColState r p z)
    {k : Fin (r + 1)} (hk : k ≠ Fin.last r) (w : Fin (z + 1)) :
    (∀ i, i ≠ 0 → hsdmixRhs P tH cin u k.succ i w =
      tH * Spec.beadRate 0 0 (P.Ds i) P.rb 0 (∑ l, P.Br k l * u l.succ i w)) ∧
    hsdmixRhs P tH cin u k.succ 0 w = -∑ j : Fin p, hsdmixRhs P tH cin u k.succ j.succ w := by
  have hset : ∀ (l : Fin (r + 1)) i, setInlet u cin l.succ i w = u l.succ i w := by
    intro l i; unfold setInlet; rw [if_neg]; rintro ⟨h, -⟩; exact Fin.succ_ne_zero l h
  have e : ∀ i, hsdmixRhs P tH cin u k.succ i w = hsdmBead P tH (setInlet u cin) k i w := by
    intro i
    show (if k = Fin.last r then _ else _) = _
    rw [if_neg hk]
  refine ⟨fun i hi => ?_, ?_⟩
  · rw [e, hsdmBead, implicitRef, if_neg hi]
    simp only [hset]
    unfold Spec.beadRate
    ring
  · rw [e]
    simp only [e]
    rw [hsdmBead, implicitRef, if_pos rfl]
    congr 1

/-- C90. Pore and surface model: with `C` the pore concentrations (equilibrium with the loading per solid
volume at the total of the bulk liquid) interior rates of every ion but the reference are pore diffusion of
`C` plus surface diffusion of what is not in the pore water; the reference ion balances the others. -/
theorem c90_psdm (P : ColParams r p z) (tH : ℝ) (cin : Fin (p + 1) → ℝ) (u : ColState r p z)
    (he : P.EPOR ≠ 1) {k : Fin (r + 1)} (hk : k ≠ Fin.last r) (w : Fin (z + 1))
    {C : Fin (r + 1) → Fin (p + 1) → ℝ}
    (hC : ∀ l, C l = ceq P.K P.val (fun j => u l.succ j w / (1 - P.EPOR)) (∑ j, setInlet u cin 0 j w)) :
    (∀ i, i ≠ 0 → psdmixRhs P tH cin u k.succ i w =
      tH * Spec.beadRate P.EPOR (P.Dp i) (P.Ds i) P.rb (∑ l, P.Br k l * C l i)
        (∑ l, P.Br k l * ((u l.succ i w - P.EPOR * C l i) / (1 - P.EPOR)))) ∧
    psdmixRhs P tH cin u k.succ 0 w = -∑ j : Fin p, psdmixRhs P tH cin u k.succ j.succ w := by
  have hset : ∀ (l : Fin (r + 1)) i, setInlet u cin l.succ i w = u l.succ i w := by
    intro l i; unfold setInlet; rw [if_neg]; rintro ⟨h, -⟩; exact Fin.succ_ne_zero l h
  have e : ∀ i, psdmixRhs P tH cin u k.succ i w = psdmBead P tH (setInlet u cin) k i w := by
    intro i
    show (if k = Fin.last r then _ else _) = _
    rw [if_neg hk]
  have hp : ∀ l i, poreConc P (setInlet u cin) l i w = C l i := by
    intro l i
    rw [hC, poreConc]
    simp only [hset]
  refine ⟨fun i hi => ?_, ?_⟩
  · rw [e, psdmBead, implicitRef, if_neg hi]
    simp only [hset, hp]
    unfold Spec.beadRate
    have h1 : (1 - P.EPOR) ≠ 0 := fun h => he (by linarith)
    have h2 : (1 - P.EPOR) * ∑ l, P.Br k l * ((u l.succ i w - P.EPOR * C l i) / (1 - P.EPOR)) =
        (∑ l, P.Br k l * u l.succ i w) - P.EPOR * ∑ l, P.Br k l * C l i := by
      rw [Finset.mul_sum, Finset.mul_sum, ← Finset.sum_sub_distrib]
      refine Finset.sum_congr rfl (fun l _ => ?_)
      field_simp
    rw [mul_assoc (1 - P.EPOR), mul_left_comm (1 - P.EPOR), h2]
    ring
  · rw [e]
    simp only [e]
    rw [psdmBead, implicitRef, if_pos rfl]
    congr 1

/-- C90 for the batch models: the same law for every ion, with the total of the initial water. -/
theorem c90_batch_hsdm (P : BatchParams r p) {u d : BatchState r p} (h : hsdmBatchRhs P u = some d)
    {k : Fin (r + 1)} (hk : k ≠ Fin.last r) (i : Fin (p + 1)) :
    d k.succ i = Spec.beadRate 0 0 P.Ds P.rb 0 (∑ l, P.Br k l * u l.succ i) := by
  simp only [hsdmBatchRhs, Option.map_eq_some_iff] at h
  obtain ⟨Ceq, -, rfl⟩ := h
  show (if k = Fin.last r then _ else _) = _
  rw [if_neg hk]
  unfold Spec.beadRate
  ring

theorem batchAssemble_bead (P : BatchParams r p) (J : Fin (p + 1) → ℝ) (dq : Fin (r + 1) → Fin (p + 1) → ℝ)
    (k : Fin (r + 1)) (i : Fin (p + 1)) : batchAssemble P J dq k.succ i = if k = Fin.last r then
      (-J i / P.rb - ∑ k' : Fin r, P.Wr k'.castSucc * dq k'.castSucc i) / P.Wr (Fin.last r)
    else dq k i := rfl

theorem c90_batch_psdm (P : BatchParams r p) {u d : BatchState r p} (he : P.EPOR ≠ 1)
    (h : psdmBatchRhs P u = some d) {k : Fin (r + 1)} (hk : k ≠ Fin.last r) (i : Fin (p + 1))
    {C : Fin (r + 1) → Fin (p + 1) → ℝ}
    (hC : ∀ l, ceqBatch P.K P.val (fun j => u l.succ j / (1 - P.EPOR)) (∑ j, P.C0 j) = some (C l)) :
    d k.succ i = Spec.beadRate P.EPOR P.Dp P.Ds P.rb (∑ l, P.Br k l * C l i)
      (∑ l, P.Br k l * ((u l.succ i - P.EPOR * C l i) / (1 - P.EPOR))) := by
  have hs : ∀ l : Fin (r + 1), (ceqBatch P.K P.val (fun j => u l.succ j / (1 - P.EPOR)) (∑ j, P.C0 j)).isSome := by
    intro l; rw [hC]; rfl
  have hg : ∀ l : Fin (r + 1), (ceqBatch P.K P.val (fun j => u l.succ j / (1 - P.EPOR)) (∑ j, P.C0 j)).get (hs l) = C l := by
    intro l
    exact Option.get_of_eq_some _ (hC l)
  unfold psdmBatchRhs at h
  simp only at h
  rw [dif_pos hs] at h
  have h' := Option.some.inj h
  simp only [hg] at h'
  have hd : d k.succ i = (P.EPOR * (P.Dp - P.Ds) * (∑ l, P.Br k l * C l i) +
      P.Ds * ∑ l, P.Br k l * u l.succ i) / P.rb ^ 2 := by
    rw [← h', batchAssemble_bead, if_neg hk]
  rw [hd]
  unfold Spec.beadRate
  have h1 : (1 - P.EPOR) ≠ 0 := fun h => he (by linarith)
  have h2 : (1 - P.EPOR) * ∑ l, P.Br k l * ((u l.succ i - P.EPOR * C l i) / (1 - P.EPOR)) =
      (∑ l, P.Br k l * u l.succ i) - P.EPOR * ∑ l, P.Br k l * C l i := by
    rw [Finset.mul_sum, Finset.mul_sum, ← Finset.sum_sub_distrib]
    refine Finset.sum_congr rfl (fun l _ => ?_)
    field_simp
  rw [mul_assoc (1 - P.EPOR), mul_left_comm (1 - P.EPOR), h2]
  ring

/-- C90, batch film: the water loses each ion through the bead surface at `kL` times the distance from
equilibrium, spread over the water volume; the beads, of area `3/rb` per volume, gain the same. -/
theorem c90_film_hsdm (P : BatchParams r p) {u d : BatchState r p} (hw : P.Wr (Fin.last r) ≠ 0)
    (h : hsdmBatchRhs P u = some d) {C : Fin (p + 1) → ℝ}
    (hC : ceqBatch P.K P.val (u (Fin.last (r + 1))) (∑ j, P.C0 j) = some C) (i : Fin (p + 1)) :
    d 0 i = -(3 / P.rb * P.VR / P.VL) * (P.kL * (u 0 i - C i)) ∧
    3 * ∑ k, P.Wr k * d k.succ i = 3 / P.rb * (P.kL * (u 0 i - C i)) := by
  simp only [hsdmBatchRhs, hC, Option.map_some] at h
  obtain rfl := Option.some.inj h
  refine ⟨?_, ?_⟩
  · show 3 * P.VR / P.rb * (-P.kL * (u 0 i - C i)) / P.VL = _
    ring
  · rw [Fin.sum_univ_castSucc]
    have e : ∀ k : Fin r, batchAssemble P (fun i => -P.kL * (u 0 i - C i))
        (fun k i => P.Ds / P.rb ^ 2 * ∑ l, P.Br k l * u l.succ i) k.castSucc.succ i =
        P.Ds / P.rb ^ 2 * ∑ l, P.Br k.castSucc l * u l.succ i := by
      intro k; rw [batchAssemble_bead, if_neg (Fin.castSucc_lt_last k).ne]
    simp only [e]
    rw [batchAssemble_bead, if_pos rfl, mul_div_cancel₀ _ hw]
    ring

theorem c90_film_psdm (P : BatchParams r p) {u d : BatchState r p} (hw : P.Wr (Fin.last r) ≠ 0)
    (h : psdmBatchRhs P u = some d) {C : Fin (p + 1) → ℝ}
    (hC : ceqBatch P.K P.val (fun j => u (Fin.last (r + 1)) j / (1 - P.EPOR)) (∑ j, P.C0 j) = some C)
    (i : Fin (p + 1)) :
    d 0 i = -(3 / P.rb * P.VR / P.VL) * (P.kL * (u 0 i - C i)) ∧
    3 * ∑ k, P.Wr k * d k.succ i = 3 / P.rb * (P.kL * (u 0 i - C i)) := by
  unfold psdmBatchRhs at h
  simp only at h
  split at h
  · rename_i hs
    have hg : (ceqBatch P.K P.val (fun i => u (Fin.last r).succ i / (1 - P.EPOR)) (∑ j, P.C0 j)).get
        (hs (Fin.last r)) = C := Option.get_of_eq_some _ hC
    have h' := Option.some.inj h
    rw [hg] at h'
    rw [← h']
    refine ⟨?_, ?_⟩
    · show 3 * P.VR / P.rb * (-P.kL * (u 0 i - C i)) / P.VL = _
      ring
    · rw [Fin.sum_univ_castSucc]
      have e : ∀ (J : Fin (p + 1) → ℝ) (dq : Fin (r + 1) → Fin (p + 1) → ℝ) (k : Fin r),
          batchAssemble P J dq k.castSucc.succ i = dq k.castSucc i := by
        intro J dq k; rw [batchAssemble_bead, if_neg (Fin.castSucc_lt_last k).ne]
      simp only [e]
      rw [batchAssemble_bead, if_pos rfl, mul_div_cancel₀ _ hw]
      ring
  · cases h

/-- C91, full statement: the pore concentration at each bead point is in equilibrium with what is left of the
bead content once the pore water has been taken out. -/
def PoreSplit : Prop :=
  ∀ (r p z : ℕ) (P : ColParams r p z) (u : ColState r p z) (k : Fin (r + 1)) (w : Fin (z + 1)),
    0 ≤ P.EPOR → P.EPOR < 1 → (∀ i, 0 < P.K i) → (∀ i, P.val i = 1) → (∀ a i w, 0 < u a i w) →
    (fun i => poreConc P u k i w) = ceq P.K P.val
      (fun j => (u k.succ j w - P.EPOR * poreConc P u k j w) / (1 - P.EPOR)) (∑ j, u 0 j w)

/-- C91, what holds: without pores; and in general the loading used exceeds the adsorbed loading by exactly
the pore water `eps C`, so that pore water is counted twice. Missing: equality when there are pores (the
source calls it an approximation). -/
theorem c91_partial (P : ColParams r p z) (u : ColState r p z) (k : Fin (r + 1)) (w : Fin (z + 1)) :
    (P.EPOR = 0 → (fun i => poreConc P u k i w) = ceq P.K P.val
      (fun j => (u k.succ j w - P.EPOR * poreConc P u k j w) / (1 - P.EPOR)) (∑ j, u 0 j w)) ∧
    (P.EPOR ≠ 1 → ∃ q : Fin (p + 1) → ℝ, (fun i => poreConc P u k i w) = ceq P.K P.val q (∑ j, u 0 j w) ∧
      ∀ i, P.EPOR * poreConc P u k i w + (1 - P.EPOR) * q i = u k.succ i w + P.EPOR * poreConc P u k i w) := by
  refine ⟨fun h => ?_, fun h => ⟨fun j => u k.succ j w / (1 - P.EPOR), rfl, fun i => ?_⟩⟩
  · funext i
    simp only [poreConc, h, zero_mul, sub_zero]
  · have h1 : (1 - P.EPOR) ≠ 0 := fun h' => h (by linarith)
    simp only
    field_simp
    ring

/-- C91 is false of the code: two ions of selectivities 1 and 3, half of the bead pores. -/
theorem c91_false : ¬ PoreSplit := by
  intro h
  let P : ColParams 0 1 0 := ⟨1, 1, 1, 1, 5, 1 / 2, ![1, 1], ![1, 1], ![1, 1], ![1, 3], ![1, 1], 0, 0, ![1]⟩
  let u : ColState 0 1 0 := ![![![2], ![1]], ![![2], ![3]]]
  have hval : ¬ ∃ i : Fin 2, (![1, 1] : Fin 2 → ℕ) i = 2 := by decide
  have hc : ∀ (q : Fin 2 → ℝ) (CT : ℝ) (i : Fin 2), ceq P.K P.val q CT i =
      q i * CT / ((P.K i / P.K 0) * q 0 + (P.K i / P.K 1) * q 1) := by
    intro q CT i
    unfold ceq
    rw [if_neg hval, ceqMv, Fin.sum_univ_two]
    rfl
  have h0 := congrFun (h 0 1 0 P u 0 0 (by norm_num [P]) (by norm_num [P])
    (by intro i; fin_cases i <;> norm_num [P]) (by intro i; fin_cases i <;> rfl)
    (by intro a i w; fin_cases a <;> fin_cases i <;> fin_cases w <;> norm_num [u])) 0
  have hsum : ∑ j, u 0 j 0 = 3 := by
    rw [show ∑ j, u 0 j 0 = u 0 0 0 + u 0 1 0 from Fin.sum_univ_two _]
    norm_num [u]
  have hp : ∀ i, poreConc P u 0 i 0 = ![2, 1] i := by
    intro i
    rw [poreConc, hc, hsum]
    fin_cases i <;> norm_num [P, u]
  simp only [hp, hsum] at h0
  rw [hc] at h0
  norm_num [P, u] at h0

/-- Interior points exist and the rates exist there. -/
example : (0 : Fin 2) ≠ Fin.last 1 ∧ ∃ d, hsdmBatchRhs
    (⟨1, 1, 0, 1, 1, 1, 1, 1, 1, ![1, 1], ![1, 3], ![1, 1], 0, ![1, 1]⟩ : BatchParams 1 1)
    (fun _ _ => 1) = some d := by
  refine ⟨by decide, ?_⟩
  unfold hsdmBatchRhs ceqBatch
  simp only
  rw [if_neg (by decide)]
  exact ⟨_, rfl⟩

end WTM
