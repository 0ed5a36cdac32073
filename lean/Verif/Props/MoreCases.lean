import Verif.Props.PoreModel
import Verif.Props.Tools
import Verif.Props.PacHsdm
import Verif.Props.RIexWeb
import Verif.Props.GacRelative
import Verif.Props.IexOrder

/-!
Concrete cases of theorems on equilibria, replacement intervals, series solutions, alkalinity and ions or compounds that do not matter: each
example applies the theorem it names to data of the kind the applications are given.
-/

set_option autoImplicit false

namespace WTM

open BigOperators Set

/-- C22: three monovalent ions on a resin that does not yet hold the second: neutral, by selectivity and not negative. -/
example : Spec.Neutral (ceq ![1, 3, 2] (fun _ => 1) ![5, 0, 1] 6 : Fin 3 → ℝ) 6 ∧
    (∀ i, 0 ≤ ceq (![1, 3, 2] : Fin 3 → ℝ) (fun _ => 1) ![5, 0, 1] 6 i) ∧
    5 * ceq (![1, 3, 2] : Fin 3 → ℝ) (fun _ => 1) ![5, 0, 1] 6 2 = 1 / 2 * (1 * ceq (![1, 3, 2] : Fin 3 → ℝ) (fun _ => 1) ![5, 0, 1] 6 0) := by
  have := c22_monovalent (p := 2) (K := ![1, 3, 2]) (val := fun _ => 1) (q := ![5, 0, 1]) (CT := 6)
    (by intro i; fin_cases i <;> simp) (by intro i; fin_cases i <;> simp) ⟨0, by simp⟩ (by norm_num) (by simp)
  exact ⟨this.1, this.2.2, this.2.1 0 2⟩

theorem mixedOk : DvOk (p := 2) ![1, 3, 2] ![1, 1, 2] ![5, 0, 1] :=
  ⟨by intro i; fin_cases i <;> simp, rfl, by intro i; fin_cases i <;> simp, by simp, rfl⟩

theorem mixedVal : ∀ i : Fin 3, (![1, 1, 2] : Fin 3 → ℕ) i = 1 ∨ (![1, 1, 2] : Fin 3 → ℕ) i = 2 := by
  intro i; fin_cases i <;> simp

/-- C23, C24, C25: with sulphate as a divalent ion both formulas give the one neutral water in equilibrium with the resin, which still holds chloride. -/
example : Spec.Neutral (ceq ![1, 3, 2] ![1, 1, 2] ![5, 0, 1] 6 : Fin 3 → ℝ) 6 ∧
    0 < ceq (![1, 3, 2] : Fin 3 → ℝ) ![1, 1, 2] ![5, 0, 1] 6 0 ∧
    ceqBatch (![1, 3, 2] : Fin 3 → ℝ) ![1, 1, 2] ![5, 0, 1] 6 = some (ceq ![1, 3, 2] ![1, 1, 2] ![5, 0, 1] 6) ∧
    ∀ C : Fin 3 → ℝ, 0 ≤ C 0 → Spec.Selectivity ![1, 3, 2] ![1, 1, 2] ![5, 0, 1] C → Spec.Neutral C 6 →
      C = ceq ![1, 3, 2] ![1, 1, 2] ![5, 0, 1] 6 :=
  have h := c23_divalent mixedOk mixedVal ⟨2, rfl⟩ (show (0:ℝ) < 6 by norm_num)
  ⟨h.1, h.2.2.2.1, c25_same mixedOk ⟨2, rfl, by simp⟩ (by norm_num), (c24_unique mixedOk mixedVal ⟨2, rfl⟩ (by norm_num)).2⟩

/-- C25, C26: a divalent ion in the table that the resin does not hold: the column uses the formula for monovalent ions, the batch divides by zero. -/
example : ceqBatch (![1, 3] : Fin 2 → ℝ) ![1, 2] ![5, 0] 6 = none ∧ ceq (![1, 3] : Fin 2 → ℝ) ![1, 2] ![5, 0] 6 = ceqMv ![1, 3] ![5, 0] 6 ∧
    ceqDv (![1, 3] : Fin 2 → ℝ) ![1, 1] ![5, 2] 6 = ceqMv ![1, 3] ![5, 2] 6 := by
  have h := c25_no_divalent_loaded (p := 1) (K := ![1, 3]) (val := ![1, 2]) (q := ![5, 0]) (CT := 6)
    ⟨by intro i; fin_cases i <;> simp, rfl, by intro i; fin_cases i <;> simp, by simp, rfl⟩ ⟨1, rfl⟩
    (by intro i; fin_cases i <;> simp) (by intro i; fin_cases i <;> simp) (by norm_num)
  exact ⟨h.1, h.2, c26_agree ⟨by intro i; fin_cases i <;> simp, rfl, by intro i; fin_cases i <;> simp, by simp, rfl⟩
    (by intro i; fin_cases i <;> simp) (by norm_num)⟩

/-- C28: after one Euler step of any length from fresh resin every point of every bead still holds the capacity. -/
example (m : ColModel) (P : ColParams 3 2 4) (tH h : ℝ) (cin : ℝ → Fin 3 → ℝ) (Cin : Fin 3 → ℝ) (k : Fin 4) (w : Fin 5) :
    ∑ i, (colInit P.Q Cin none + h • m.rhs P tH (cin 0) (colInit P.Q Cin none) : ColState 3 2 4) k.succ i w = P.Q := by
  refine c28_total_is_Q m P tH cin Cin ?_ k w
  have := Spec.Produced.step (F := fun t u => m.rhs P tH (cin t) u) (y0 := colInit P.Q Cin none) 1 1 (fun _ => colInit P.Q Cin none)
    (fun _ => 1) (fun _ => .start) (by simp) (fun _ => 0) (fun _ => h) (fun _ => colInit P.Q Cin none)
  simpa using this

/-- C60: PFOA that rises to 10 ng/L in ten days is over 4 ng/L on the fifth, so the bed is replaced after four. -/
example : ∃ t, replacementInterval (demoFrame 10) none = .ok t ∧ ∀ r, ("PFOA", r) ∈ t → r.predicted = some 4 := by
  obtain ⟨t, ht⟩ := c62_processed (f := demoFrame 10) (by simp [demoFrame]) (by simp [demoFrame, EffTable.days]; norm_num) (by simp [demoFrame])
  refine ⟨t, ht, fun r hr => ?_⟩
  obtain ⟨mcl, hm, h1, -⟩ := c60_compound (demoFrame_wf 10) ht hr (by simp [demoFrame])
  have e : mcl = 4 := by
    have h4 : Spec.limit "PFOA" = some 4 := rfl
    rw [h4] at hm
    exact (Option.some.inj hm).symm
  subst e
  have hd : ∀ k : ℕ, k ≤ 10 → (demoFrame 10).daily "PFOA" k = k := by
    intro k hk
    have hk' : (k : ℝ) ≤ 10 := by exact_mod_cast hk
    have := (c60_daily (demoFrame_wf 10) "PFOA" k).1 [] _ _ [] rfl (Nat.cast_nonneg k) hk'
    rw [this]
    norm_num
  refine (h1 4).2 ⟨5, by norm_num, ⟨[(0, fun _ => 0)], _, rfl, by norm_num⟩, ?_, fun j hj => ?_⟩
  · rw [hd 5 (by norm_num)]
    norm_num
  · rw [hd j (by omega)]
    exact_mod_cast (by omega : j ≤ 4)

/-- C81, C159: the first two roots for equal capacities of water and carbon, and the uptake computed with them. -/
example (t : ℝ) (ht : 0 ≤ t) : ∃ x y : ℝ, Real.pi < x ∧ x < y ∧ Spec.CrankRoot 1 x ∧ Spec.CrankRoot 1 y ∧
    0 ≤ finiteSphere [x, y] 1 1 1 t ∧ finiteSphere [x, y] 1 1 1 t < 1 := by
  have hpi := Real.pi_pos
  obtain ⟨-, -, ⟨x, ⟨hx, rx⟩, -⟩, bx⟩ := c81_bracket (A := 1) one_pos (N := 0) (by norm_num)
  obtain ⟨-, -, ⟨y, ⟨hy, ry⟩, -⟩, byy⟩ := c81_bracket (A := 1) one_pos (N := 1) (by norm_num)
  have b1 := bx x hx rx
  have b2 := byy y hy ry
  norm_num at b1 b2
  have hcos : ∀ (n : ℕ) (x : ℝ), n * Real.pi < x → x < n * Real.pi + Real.pi / 2 → Real.cos x ≠ 0 := by
    intro n x h1 h2 h0
    have : 0 < Real.cos (x - n * Real.pi) := Real.cos_pos_of_mem_Ioo ⟨by linarith, by linarith⟩
    rw [Real.cos_sub_nat_mul_pi, h0, mul_zero] at this
    exact lt_irrefl _ this
  have hxy : x < y := by linarith [b1.2, b2.1]
  refine ⟨x, y, b1.1, hxy, rx, ry, c159_crank one_pos one_pos one_pos (by simp) (by simpa using hxy.ne) ?_ ht⟩
  intro v hv
  simp only [List.mem_cons, List.not_mem_nil, or_false] at hv
  rcases hv with rfl | rfl
  · exact ⟨by linarith [b1.1], hcos 1 _ (by push_cast; linarith [b1.1]) (by push_cast; linarith [b1.2]), rx⟩
  · exact ⟨by linarith [b2.1], hcos 2 _ (by push_cast; linarith [b2.1]) (by push_cast; linarith [b2.2]), ry⟩

/-- C146: neutral water with an alkalinity of 100 mg/L has bicarbonate. -/
example : ∃ b : ℝ, 0 ≤ b ∧ rBicarb 7 100 = some (1000 * b, 1000 * b * 12, 1000 * b * 61) := by
  obtain ⟨a, b, c, h, hb⟩ := c146_total 7 100
  have h0 : 0 ≤ b := hb.2 (by norm_num)
  exact ⟨b, h0, by rw [c146_equilibrium 7 100 a b c h, if_pos h0]⟩

/-- C228: four times the concentration with twice the Freundlich constant at 1/n = 1/2: the same column, in every respect. -/
example (G : GacCol) (wr : Fin 3 → ℝ) (br : Fin 3 → Fin 3 → ℝ) (az : Fin 5 → Fin 5 → ℝ) :
    gacDim G (fun _ : Fin 1 => ⟨200, 1 / 2, 131, 90, 12, 0, 0, 0⟩) wr br az = gacDim G (fun _ : Fin 1 => ⟨100, 1 / 2, 131, 90, 3, 0, 0, 0⟩) wr br az := by
  refine (c228_groups (G := G) (cs := fun _ : Fin 1 => ⟨100, 1 / 2, 131, 90, 3, 0, 0, 0⟩)
    (cs' := fun _ : Fin 1 => ⟨200, 1 / 2, 131, 90, 12, 0, 0, 0⟩) (ka := 4) (by norm_num) (fun _ => ⟨rfl, rfl, rfl, rfl, rfl⟩) (fun _ => by norm_num) (fun _ => by norm_num)
    (fun _ => by norm_num) (fun _ => ?_) (fun _ => by norm_num) wr br az).1
  have e : ((12:ℝ) * 131) ^ ((1:ℝ) / 2) = 2 * (3 * 131) ^ ((1:ℝ) / 2) := by
    rw [show (12:ℝ) * 131 = 2 ^ (2:ℝ) * (3 * 131) by norm_num, Real.mul_rpow (by norm_num) (by norm_num), ← Real.rpow_mul (by norm_num)]
    norm_num
  unfold Spec.partition Spec.massConc
  dsimp only
  rw [e]
  ring

/-- C233: a third, divalent ion of which there is nothing anywhere changes no rate of the other two. -/
example (m : ColModel) (Az : Fin 2 → Fin 2 → ℝ) (Br : Fin 2 → Fin 2 → ℝ) (Wr : Fin 2 → ℝ) (tH : ℝ) (a : Fin 3) (i : Fin 2) (w : Fin 2) :
    let P : ColParams 1 2 1 := ⟨1 / 4, 10, 1, 1 / 10, 1000, 1 / 2, 1, 1, 2, ![1, 3, 2], ![1, 1, 2], Az, Br, Wr⟩
    let u : ColState 1 2 1 := fun _ j _ => if j = 2 then 0 else 1
    m.rhs P tH ![2, 1, 0] u a i.castSucc w =
      m.rhs (Spec.pick Fin.castSucc P) tH (![2, 1, 0] ∘ Fin.castSucc) (Spec.pickState Fin.castSucc u) a i w := by
  intro P u
  refine c233_partial m 1 1 2 1 Fin.castSucc P tH ![2, 1, 0] u ⟨Fin.castSucc_injective 2, rfl⟩ (fun j hj => ?_) (fun k w => ?_) a i w
  · rw [castSucc_off hj]
    exact ⟨rfl, fun _ _ => rfl⟩
  · have hp : 0 < m.load P 1 := by
      cases m <;> simp [ColModel.load, P]
      norm_num
    have hz : (fun j : Fin 3 => m.load P (u k.succ j w)) = fun j => if j = 2 then m.load P 0 else m.load P 1 := by
      funext j
      simp only [u]
      split <;> rfl
    rw [hz]
    refine Or.inr ⟨rfl, fun i => ?_, ?_, ?_⟩
    · fin_cases i <;> rfl
    · simpa using hp
    · rw [Fin.sum_univ_two]
      have h1 : (Fin.castSucc (0 : Fin 2) : Fin 3) ≠ 2 := by decide
      have h2 : (Fin.castSucc (1 : Fin 2) : Fin 3) ≠ 2 := by decide
      beta_reduce
      rw [if_neg h1, if_neg h2]
      have k0 : P.K (Fin.castSucc 0) = 1 := rfl
      have k1 : P.K (Fin.castSucc 1) = 3 := rfl
      rw [k0, k1]
      positivity

end WTM
