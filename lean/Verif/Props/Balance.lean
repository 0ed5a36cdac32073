import Mathlib.Tactic
import Verif.Spec.Balance
import Verif.Lemmas.Gauss
import Verif.Props.Advect
import Verif.Props.IexColumn
import Verif.Props.GacPhys

/-! Properties C155, C156: balance over a whole column. First the weights along the bed. -/
set_option autoImplicit false
namespace WTM
open Polynomial BigOperators

section weights
variable {m : ℕ} {leg : Fin m → ℝ}

theorem axialNodes_last (leg : Fin m → ℝ) : axialNodes leg (Fin.last (m + 1)) = 1 := by
  rw [axialNodes, ← Fin.succ_last, Fin.cons_succ, Fin.snoc_last]

theorem axialNodes_int (leg : Fin m → ℝ) (k : Fin m) : axialNodes leg k.castSucc.succ = leg k := by
  rw [axialNodes, Fin.cons_succ, Fin.snoc_castSucc]

/-- Weights on the points of one element: none at the ends. -/
noncomputable def bedW (leg : Fin m → ℝ) : Fin (m + 2) → ℝ := Fin.cons 0 (Fin.snoc (α := fun _ => ℝ) (gaussW leg) 0)

theorem bedW_sum (leg : Fin m → ℝ) (F : Fin (m + 2) → ℝ) :
    ∑ w, bedW leg w * F w = ∑ k : Fin m, gaussW leg k * F k.castSucc.succ := by
  rw [Fin.sum_univ_succ, Fin.sum_univ_castSucc]
  simp [bedW]

/-- C155. One element: the weights exist. -/
theorem c155_weights_single (hm : 1 ≤ m) (h : Spec.ShJacobiRoots m 1 1 leg) :
    ∃ g, Spec.BedMean (axialNodes leg) (2 * m - 1) g ∧ Spec.Telescopes (aMat (axialNodes leg)) g := by
  refine ⟨bedW leg, ⟨?_, rfl, ?_⟩, ?_⟩
  · intro w
    induction w using Fin.cases with
    | zero => exact le_rfl
    | succ w =>
      induction w using Fin.lastCases with
      | last => simp [bedW]
      | cast k => simpa [bedW] using (gaussW_pos h k).le
  · intro f hf
    rw [bedW_sum]
    simp only [axialNodes_int]
    exact gauss_exact h (by omega)
  · intro c
    rw [bedW_sum]
    exact gauss_element hm h c

/-- Sum over blocks. -/
theorem sum_blocks (F : ℕ → ℝ) (N M : ℕ) :
    ∑ w ∈ Finset.range (N * M), F w = ∑ k ∈ Finset.range N, ∑ j ∈ Finset.range M, F (k * M + j) := by
  induction N with
  | zero => simp
  | succ N ih => rw [Finset.sum_range_succ, ← ih, add_mul, one_mul, Finset.sum_range_add]

/-- Weights on all points of `NE` elements. -/
noncomputable def bedWs (NE : ℕ) (leg : Fin m → ℝ) (w : ℕ) : ℝ :=
  if h : w % (m + 1) < m + 2 then bedW leg ⟨w % (m + 1), h⟩ / NE else 0

theorem bedWs_at (NE : ℕ) (leg : Fin m → ℝ) (k : ℕ) {j : ℕ} (hj : j < m + 1) :
    bedWs NE leg (k * (m + 1) + j) = bedW leg ⟨j, by omega⟩ / NE := by
  have e : (k * (m + 1) + j) % (m + 1) = j := by
    rw [mul_comm, Nat.mul_add_mod, Nat.mod_eq_of_lt hj]
  unfold bedWs
  rw [dif_pos (by rw [e]; omega)]
  congr 2
  exact Fin.ext e

theorem bedWs_sum (NE : ℕ) (leg : Fin m → ℝ) (F : ℕ → ℝ) :
    ∑ w : Fin (NE * (m + 1) + 1), bedWs NE leg w * F w =
      ∑ k ∈ Finset.range NE, ∑ j : Fin m, gaussW leg j / NE * F (k * (m + 1) + (j + 1)) := by
  rw [Fin.sum_univ_eq_sum_range (fun w => bedWs NE leg w * F w), Finset.sum_range_succ, sum_blocks]
  have h0 := bedWs_at NE leg NE (j := 0) (by omega)
  rw [add_zero] at h0
  rw [h0]
  have : bedW leg ⟨0, by omega⟩ = 0 := rfl
  rw [this, zero_div, zero_mul, add_zero]
  apply Finset.sum_congr rfl
  intro k _
  rw [Finset.sum_range_succ']
  have h1 := bedWs_at NE leg k (j := 0) (by omega)
  rw [h1, this, zero_div, zero_mul, add_zero, ← Fin.sum_univ_eq_sum_range
    (fun j => bedWs NE leg (k * (m + 1) + (j + 1)) * F (k * (m + 1) + (j + 1)))]
  apply Finset.sum_congr rfl
  intro j _
  rw [bedWs_at NE leg k (by omega)]
  congr 2
  have : (⟨j + 1, by omega⟩ : Fin (m + 2)) = j.castSucc.succ := rfl
  rw [this]
  simp [bedW]

/-- Row of an interior point of an element. -/
theorem advOp_interior {NE : ℕ} (A0 : ℕ → ℕ → ℝ) {k : ℕ} (hk : k < NE) {j : ℕ} (hj : j < m) (w : ℕ) :
    advOp NE (m + 2) A0 (k * (m + 1) + (j + 1)) w =
      if k * (m + 1) ≤ w ∧ w < k * (m + 1) + (m + 2) then (NE : ℝ) * A0 (j + 1) (w - k * (m + 1)) else 0 := by
  have hs : ∀ a b : ℕ, a < b → a * (m + 1) + (m + 1) ≤ b * (m + 1) := by
    intro a b hab
    have := Nat.mul_le_mul_right (m + 1) (Nat.succ_le_of_lt hab)
    rw [Nat.succ_mul] at this; exact this
  have hu : ∀ k', k' * (m + 1) ≤ k * (m + 1) + (j + 1) → k * (m + 1) + (j + 1) ≤ (k' + 1) * (m + 1) → k' = k := by
    intro k' h1 h2
    rw [Nat.succ_mul] at h2
    rcases lt_trichotomy k' k with h | h | h
    · have := hs _ _ h; omega
    · exact h
    · have := hs _ _ h; omega
  have e : k * (m + 1) + (j + 1) - k * (m + 1) = j + 1 := by omega
  unfold advOp zeroRow
  rw [if_neg (by omega), advCont_other (M := m + 1), advBlocks_row (M := m + 1) hk, e]
  · constructor
    · omega
    · rw [Nat.succ_mul]; omega
  · intro k' _ h1 h2; exact hu k' h1 h2
  · intro k' _ h
    have h1 := hu k' (by rw [h, Nat.succ_mul]; omega) h.le
    subst h1
    rw [Nat.succ_mul] at h
    omega

/-- C155. Any number of elements: the weights exist. -/
theorem c155_weights (hm : 1 ≤ m) (h : Spec.ShJacobiRoots m 1 1 leg) {NE : ℕ} (hNE : 1 ≤ NE) :
    ∃ g, Spec.BedMean (z := NE * (m + 1)) (fun w => gridPt NE (m + 1) (axialNodes leg) w) (2 * m - 1) g ∧
      Spec.Telescopes (fun w w' => advOp NE (m + 2) (arr2 (aMat (axialNodes leg))) w w') g := by
  have hN : (NE : ℝ) ≠ 0 := by positivity
  refine ⟨fun w => bedWs NE leg w, ⟨?_, ?_, ?_⟩, ?_⟩
  · intro w
    unfold bedWs
    by_cases hw : (w : ℕ) % (m + 1) < m + 2
    · rw [dif_pos hw]
      refine div_nonneg ?_ (by positivity)
      obtain ⟨g, hg, -⟩ := c155_weights_single hm h
      generalize (⟨(w : ℕ) % (m + 1), hw⟩ : Fin (m + 2)) = w'
      induction w' using Fin.cases with
      | zero => exact le_rfl
      | succ w =>
        induction w using Fin.lastCases with
        | last => simp [bedW]
        | cast k => simpa [bedW] using (gaussW_pos h k).le
    · rw [dif_neg hw]
  · have := bedWs_at NE leg 0 (j := 0) (by omega)
    rw [zero_mul, add_zero] at this
    show bedWs NE leg 0 = 0
    rw [this]
    have : bedW leg ⟨0, by omega⟩ = 0 := rfl
    rw [this, zero_div]
  · intro f hf
    rw [bedWs_sum NE leg (fun w => f.eval (gridPt NE (m + 1) (axialNodes leg) w))]
    have hel : ∀ k ∈ Finset.range NE,
        ∑ j : Fin m, gaussW leg j / NE * f.eval (gridPt NE (m + 1) (axialNodes leg) (k * (m + 1) + (j + 1))) =
        ∫ s in ((k : ℕ) : ℝ) / NE..((k + 1 : ℕ) : ℝ) / NE, f.eval s := by
      intro k hk
      have hk := Finset.mem_range.1 hk
      set q : ℝ[X] := f.comp (C (NE : ℝ)⁻¹ * X + C ((k : ℝ) / NE)) with hq
      have hqd : q.natDegree ≤ 2 * m - 1 := by
        rw [hq, natDegree_comp, natDegree_linear (inv_ne_zero hN), mul_one]; exact hf
      have hqe : ∀ s, q.eval s = f.eval (s / NE + (k : ℝ) / NE) := by
        intro s
        rw [hq, eval_comp]
        congr 1
        simp; ring
      have key := gauss_exact h (f := q) (by omega)
      unfold pint at key
      simp only [hqe] at key
      rw [intervalIntegral.integral_comp_div_add (fun x => f.eval x) hN] at key
      have e1 : ∀ j : Fin m, gridPt NE (m + 1) (axialNodes leg) (k * (m + 1) + (j + 1)) = leg j / NE + (k : ℝ) / NE := by
        intro j
        have := gridPt_eq (x := axialNodes leg) hNE (by omega : 0 < m + 1) rfl (axialNodes_last leg) hk j.castSucc.succ
        rw [axialNodes_int] at this
        exact this
      simp only [e1]
      rw [zero_div, zero_add, smul_eq_mul] at key
      have e2 : ((k + 1 : ℕ) : ℝ) / NE = 1 / NE + (k : ℝ) / NE := by push_cast; ring
      rw [e2]
      have e3 : ∑ j : Fin m, gaussW leg j / NE * f.eval (leg j / NE + (k : ℝ) / NE) =
          (NE : ℝ)⁻¹ * ∑ j : Fin m, gaussW leg j * f.eval (leg j / NE + (k : ℝ) / NE) := by
        rw [Finset.mul_sum]
        apply Finset.sum_congr rfl
        intro j _; ring
      rw [e3, key]
      field_simp
    rw [Finset.sum_congr rfl hel, intervalIntegral.sum_integral_adjacent_intervals
      (a := fun k : ℕ => (k : ℝ) / NE) (fun k _ => poly_intervalIntegrable f _ _)]
    simp [hN]
  · intro c
    let c' : ℕ → ℝ := fun w => if hw : w < NE * (m + 1) + 1 then c ⟨w, hw⟩ else 0
    have hc : ∀ w : Fin (NE * (m + 1) + 1), c w = c' w := by
      intro w; simp only [c']; rw [dif_pos w.2]
    have hin : ∀ w : Fin (NE * (m + 1) + 1), ∑ w' : Fin (NE * (m + 1) + 1),
        advOp NE (m + 2) (arr2 (aMat (axialNodes leg))) w w' * c w' =
        (fun w : ℕ => ∑ w' ∈ Finset.range (NE * (m + 1) + 1),
          advOp NE (m + 2) (arr2 (aMat (axialNodes leg))) w w' * c' w') w := by
      intro w
      simp only [hc]
      rw [Fin.sum_univ_eq_sum_range (fun w' => advOp NE (m + 2) (arr2 (aMat (axialNodes leg))) w w' * c' w')]
    simp only [hin]
    rw [bedWs_sum NE leg (fun w : ℕ => ∑ w' ∈ Finset.range (NE * (m + 1) + 1),
          advOp NE (m + 2) (arr2 (aMat (axialNodes leg))) w w' * c' w')]
    have hel : ∀ k ∈ Finset.range NE, ∑ j : Fin m, gaussW leg j / NE *
        ∑ w' ∈ Finset.range (NE * (m + 1) + 1),
          advOp NE (m + 2) (arr2 (aMat (axialNodes leg))) (k * (m + 1) + (j + 1)) w' * c' w' =
        c' ((k + 1) * (m + 1)) - c' (k * (m + 1)) := by
      intro k hk
      have hk := Finset.mem_range.1 hk
      have hle : k * (m + 1) + (m + 2) ≤ NE * (m + 1) + 1 := by
        have := Nat.mul_le_mul_right (m + 1) (Nat.succ_le_of_lt hk)
        rw [Nat.succ_mul] at this; omega
      have key := gauss_element hm h (fun j : Fin (m + 2) => c' (k * (m + 1) + j))
      simp only [Fin.val_last, Fin.val_zero, add_zero] at key
      rw [show (k + 1) * (m + 1) = k * (m + 1) + (m + 1) by ring, ← key]
      apply Finset.sum_congr rfl
      intro j _
      have hrow : ∀ w, advOp NE (m + 2) (arr2 (aMat (axialNodes leg))) (k * (m + 1) + (j + 1)) w =
          if k * (m + 1) ≤ w ∧ w < k * (m + 1) + (m + 2) then
            (fun i => (NE : ℝ) * arr2 (aMat (axialNodes leg)) (j + 1) i) (w - k * (m + 1)) else 0 :=
        fun w => advOp_interior _ hk j.2 w
      simp only [hrow]
      rw [sum_window _ _ _ hle (fun i => (NE : ℝ) * arr2 (aMat (axialNodes leg)) (j + 1) i) c', ← Fin.sum_univ_eq_sum_range
        (fun i => (NE : ℝ) * arr2 (aMat (axialNodes leg)) (j + 1) i * c' (k * (m + 1) + i))]
      have harr : ∀ i : Fin (m + 2), arr2 (aMat (axialNodes leg)) (j + 1) i = aMat (axialNodes leg) j.castSucc.succ i := by
        intro i
        unfold arr2
        rw [dif_pos ⟨by omega, i.2⟩]
        rfl
      simp only [harr, mul_assoc]
      rw [← Finset.mul_sum]
      field_simp
    rw [Finset.sum_congr rfl hel]
    have := Finset.sum_range_sub (fun k => c' (k * (m + 1))) NE
    rw [this, zero_mul, hc, hc]
    rfl

end weights

/-- A combination of components whose rate is known, over the time of a solution. -/
theorem solves_balance {S ι κ : Type} [Fintype κ] {π : ι → S → ℝ} {F : ℝ → S → S} {t0 t1 : ℝ} (h01 : t0 ≤ t1)
    {y : ℝ → S} (h : Spec.Solves π F t0 t1 y) (c : κ → ℝ) (e : κ → ι) (ρ : ℝ → ℝ)
    (hρ : ∀ t ∈ Set.Icc t0 t1, ∑ b, c b * π (e b) (F t (y t)) = ρ t)
    (hi : IntervalIntegrable ρ MeasureTheory.volume t0 t1) :
    ∑ b, c b * π (e b) (y t1) - ∑ b, c b * π (e b) (y t0) = ∫ t in t0..t1, ρ t := by
  have hd : ∀ s ∈ Set.Icc t0 t1,
      HasDerivWithinAt (fun s => ∑ b, c b * π (e b) (y s)) (ρ s) (Set.Icc t0 t1) s := by
    intro s hs
    have := HasDerivWithinAt.fun_sum (u := Finset.univ) (A := fun b s => c b * π (e b) (y s))
      (A' := fun b => c b * π (e b) (F s (y s))) (fun b _ => (h s hs (e b)).const_mul (c b))
    rwa [hρ s hs] at this
  symm
  apply intervalIntegral.integral_eq_sub_of_hasDeriv_right_of_le h01
  · exact fun s hs => (hd s hs).continuousWithinAt
  · intro s hs
    refine ((hd s ⟨hs.1.le, hs.2.le⟩).hasDerivAt ?_).hasDerivWithinAt
    exact Icc_mem_nhds hs.1 hs.2
  · exact hi

theorem solves_continuousOn {S ι : Type} {π : ι → S → ℝ} {F : ℝ → S → S} {t0 t1 : ℝ} {y : ℝ → S}
    (h : Spec.Solves π F t0 t1 y) (a : ι) : ContinuousOn (fun t => π a (y t)) (Set.Icc t0 t1) :=
  fun s hs => (h s hs a).continuousWithinAt

/-! ### C155, ion exchange -/

section iex
variable {r p z : ℕ}

/-- Specification: what a column holds of ion `i` per volume of bed: water in the voids (fraction `EBED`) and beads, each the
mean of its sphere (`3 ∑ W q`), averaged over the bed with weights `g`. -/
noncomputable def Spec.colContent (EBED : ℝ) (W : Fin (r + 1) → ℝ) (g : Fin (z + 1) → ℝ) (u : ColState r p z)
    (i : Fin (p + 1)) : ℝ :=
  ∑ w, g w * (EBED * u 0 i w + (1 - EBED) * (3 * ∑ k : Fin (r + 1), W k * u k.succ i w))

/-- C155. What the column holds changes at the rate of what flows in minus what flows out, for every ion. -/
theorem c155_rate (m : ColModel) (P : ColParams r p z) (hz : 1 ≤ z) (tH : ℝ) (cin : Fin (p + 1) → ℝ)
    (u : ColState r p z) (hW : P.Wr (Fin.last r) ≠ 0) (hE : P.EBED ≠ 0) {g : Fin (z + 1) → ℝ} (hg0 : g 0 = 0)
    (hg : Spec.Telescopes P.Az g) (i : Fin (p + 1)) :
    Spec.colContent P.EBED P.Wr g (m.rhs P tH cin u) i =
      P.v / P.L * (cin i - u 0 i (Fin.last z)) * tH := by
  have hlast : Fin.last z ≠ 0 := by
    intro h; have := congrArg Fin.val h; simp at this; omega
  have hc := hg (fun w' => setInlet u cin 0 i w')
  have e0 : setInlet u cin 0 i 0 = cin i := if_pos ⟨rfl, rfl⟩
  have e1 : setInlet u cin 0 i (Fin.last z) = u 0 i (Fin.last z) := if_neg fun h => hlast h.2
  rw [e0, e1] at hc
  have : ∀ w, g w * (P.EBED * m.rhs P tH cin u 0 i w +
      (1 - P.EBED) * (3 * ∑ k : Fin (r + 1), P.Wr k * m.rhs P tH cin u k.succ i w)) =
      -(P.v / P.L) * tH * (g w * ∑ w', P.Az w w' * setInlet u cin 0 i w') := by
    intro w
    by_cases hw : w = 0
    · rw [hw, hg0]; ring
    · rw [c29_exchange m P tH cin u hW hE i hw]; ring
  unfold Spec.colContent
  rw [Finset.sum_congr rfl fun w _ => this w, ← Finset.mul_sum, hc]
  ring

theorem colContent_comp (EBED : ℝ) (W : Fin (r + 1) → ℝ) (g : Fin (z + 1) → ℝ) (i : Fin (p + 1)) :
    ∃ c : Fin (z + 1) × Fin (r + 2) → ℝ, ∀ u : ColState r p z,
      Spec.colContent EBED W g u i = ∑ b, c b * colComp (b.2, i, b.1) u := by
  refine ⟨fun b => g b.1 * Fin.cases EBED (fun k => (1 - EBED) * (3 * W k)) b.2, fun u => ?_⟩
  unfold Spec.colContent colComp
  rw [Fintype.sum_prod_type]
  apply Finset.sum_congr rfl
  intro w _
  symm
  rw [Fin.sum_univ_succ]
  simp only [Fin.cases_zero, Fin.cases_succ, Finset.mul_sum, mul_add]
  congr 1
  · ring
  · apply Finset.sum_congr rfl
    intro k _; ring

/-- C155. Along every exact solution, between any two times: change of content = volume fed × (influent − effluent), integrated. -/
theorem c155_solutions (m : ColModel) (P : ColParams r p z) (hz : 1 ≤ z) (tH : ℝ) (cin : ℝ → Fin (p + 1) → ℝ)
    (hW : P.Wr (Fin.last r) ≠ 0) (hE : P.EBED ≠ 0) {g : Fin (z + 1) → ℝ} (hg0 : g 0 = 0)
    (hg : Spec.Telescopes P.Az g) (i : Fin (p + 1)) {t0 t1 : ℝ} (h01 : t0 ≤ t1) {y : ℝ → ColState r p z}
    (h : Spec.Solves colComp (fun t u => m.rhs P tH (cin t) u) t0 t1 y)
    (hi : IntervalIntegrable (fun t => cin t i) MeasureTheory.volume t0 t1) :
    Spec.colContent P.EBED P.Wr g (y t1) i - Spec.colContent P.EBED P.Wr g (y t0) i =
      P.v / P.L * tH * ((∫ t in t0..t1, cin t i) - ∫ t in t0..t1, y t 0 i (Fin.last z)) := by
  obtain ⟨c, hc⟩ := colContent_comp (p := p) P.EBED P.Wr g i
  have hco : IntervalIntegrable (fun t => y t 0 i (Fin.last z)) MeasureTheory.volume t0 t1 := by
    apply ContinuousOn.intervalIntegrable
    rw [Set.uIcc_of_le h01]
    exact solves_continuousOn h (0, i, Fin.last z)
  have := solves_balance h01 h c (fun b => (b.2, i, b.1))
    (fun t => P.v / P.L * tH * (cin t i - y t 0 i (Fin.last z)))
    (fun t _ => by rw [← hc, c155_rate m P hz tH (cin t) (y t) hW hE hg0 hg i]; ring)
    ((hi.sub hco).const_mul _)
  rw [hc, hc, this, intervalIntegral.integral_const_mul, intervalIntegral.integral_sub hi hco]

/-- C155. So no more of an ion leaves than was there or fed, as long as no concentration at the end is negative. -/
theorem c155_effluent (m : ColModel) (P : ColParams r p z) (hz : 1 ≤ z) {tH : ℝ} (cin : ℝ → Fin (p + 1) → ℝ)
    (hW : ∀ k, 0 < P.Wr k) (hE : 0 < P.EBED) (hE1 : P.EBED < 1) {g : Fin (z + 1) → ℝ} (hg0 : g 0 = 0)
    (hgn : ∀ w, 0 ≤ g w) (hg : Spec.Telescopes P.Az g) (i : Fin (p + 1)) {t0 t1 : ℝ} (h01 : t0 ≤ t1)
    {y : ℝ → ColState r p z} (h : Spec.Solves colComp (fun t u => m.rhs P tH (cin t) u) t0 t1 y)
    (hi : IntervalIntegrable (fun t => cin t i) MeasureTheory.volume t0 t1) (hn : ∀ k w, 0 ≤ y t1 k i w) :
    P.v / P.L * tH * ∫ t in t0..t1, y t 0 i (Fin.last z) ≤
      Spec.colContent P.EBED P.Wr g (y t0) i + P.v / P.L * tH * ∫ t in t0..t1, cin t i := by
  have hb := c155_solutions m P hz tH cin (hW _).ne' hE.ne' hg0 hg i h01 h hi
  have hp : 0 ≤ Spec.colContent P.EBED P.Wr g (y t1) i := by
    unfold Spec.colContent
    refine Finset.sum_nonneg fun w _ => mul_nonneg (hgn w) (add_nonneg (mul_nonneg hE.le (hn _ _)) ?_)
    refine mul_nonneg (by linarith) (mul_nonneg (by norm_num) (Finset.sum_nonneg fun k _ => mul_nonneg (hW k).le (hn _ _)))
  rw [mul_sub] at hb
  linarith

/-- C155. One step of any time stepping scheme: the content of a combination of states and rates is the combination of their
contents and of the flows in and out at the stages. -/
theorem c155_step (m : ColModel) (P : ColParams r p z) (hz : 1 ≤ z) (tH : ℝ) (cin : ℝ → Fin (p + 1) → ℝ)
    (hW : P.Wr (Fin.last r) ≠ 0) (hE : P.EBED ≠ 0) {g : Fin (z + 1) → ℝ} (hg0 : g 0 = 0)
    (hg : Spec.Telescopes P.Az g) (i : Fin (p + 1)) (M l : ℕ) (ys : Fin M → ColState r p z) (a : Fin M → ℝ)
    (T c : Fin l → ℝ) (u : Fin l → ColState r p z) :
    Spec.colContent P.EBED P.Wr g (∑ j, a j • ys j + ∑ j, c j • m.rhs P tH (cin (T j)) (u j)) i =
      ∑ j, a j * Spec.colContent P.EBED P.Wr g (ys j) i +
        ∑ j, c j * (P.v / P.L * (cin (T j) i - u j 0 i (Fin.last z)) * tH) := by
  obtain ⟨d, hd⟩ := colContent_comp (p := p) P.EBED P.Wr g i
  have hr : ∀ j, P.v / P.L * (cin (T j) i - u j 0 i (Fin.last z)) * tH =
      ∑ b, d b * colComp (b.2, i, b.1) (m.rhs P tH (cin (T j)) (u j)) := by
    intro j; rw [← hd, c155_rate m P hz tH (cin (T j)) (u j) hW hE hg0 hg i]
  simp only [hr, hd]
  unfold colComp
  simp only [Pi.add_apply, Finset.sum_apply, Pi.smul_apply, smul_eq_mul, mul_add, Finset.sum_add_distrib, Finset.mul_sum]
  congr 1
  all_goals
    rw [Finset.sum_comm]
    refine Finset.sum_congr rfl fun j _ => Finset.sum_congr rfl fun b _ => ?_
    ring

/-! ### C157, tracer -/

/-- Specification: on polynomials up to degree `d` the operator is the derivative at all points but the inlet. -/
def Spec.Differentiates (A : Fin (z + 1) → Fin (z + 1) → ℝ) (x : Fin (z + 1) → ℝ) (d : ℕ) : Prop :=
  ∀ f : ℝ[X], f.natDegree ≤ d → ∀ w, w ≠ 0 → ∑ w', A w w' * f.eval (x w') = (derivative f).eval (x w)

theorem differentiates_single {m : ℕ} {leg : Fin m → ℝ} (hl : Function.Injective leg) (h01 : ∀ i, 0 < leg i ∧ leg i < 1) :
    Spec.Differentiates (aMat (axialNodes leg)) (axialNodes leg) (m + 1) := by
  intro f hf w _
  refine aMat_apply (axialNodes_inj hl h01) (lt_of_le_of_lt degree_le_natDegree ?_) w
  exact_mod_cast (by omega : f.natDegree < m + 2)

theorem differentiates_elements {NE M : ℕ} (hNE : 1 ≤ NE) (hM : 0 < M) {x : Fin (M + 1) → ℝ} (hx : StrictMono x)
    (h0 : x 0 = 0) (h1 : x (Fin.last M) = 1) :
    Spec.Differentiates (z := NE * M) (fun w w' => advOp NE (M + 1) (arr2 (aMat x)) w w') (fun w => gridPt NE M x w) M := by
  intro f hf w hw
  have := c19_polynomials hNE hM hx h0 h1 f
    (lt_of_le_of_lt degree_le_natDegree (by exact_mod_cast (by omega : f.natDegree < M + 1)))
    (i := w) (by have : (w : ℕ) ≠ 0 := fun h => hw (Fin.ext h)
                 omega) w.2
  rw [← Fin.sum_univ_eq_sum_range (fun j => advOp NE (M + 1) (arr2 (aMat x)) w j * f.eval (gridPt NE M x j))] at this
  exact this

/-- C157. An ion that does not enter the beads (`kL = 0`), fed with a polynomial of time whose degree the axial points can
resolve, is carried by the water: if its concentration at `x` is what was fed the time `x` times `EBED L / v` earlier, this stays
so. Whatever the other ions do. -/
theorem c157_tracer (m : ColModel) (P : ColParams r p z) {tH : ℝ} (hE : P.EBED ≠ 0) (hL : P.L ≠ 0) (hv : P.v ≠ 0)
    {x : Fin (z + 1) → ℝ} (hx0 : x 0 = 0) {d : ℕ} (hA : Spec.Differentiates P.Az x d) {i : Fin (p + 1)} (hi : i ≠ 0)
    (hk : P.kL i = 0) (f : ℝ[X]) (hf : f.natDegree ≤ d) (cin : Fin (p + 1) → ℝ) (T : ℝ) (hc : cin i = f.eval (T * tH))
    (u : ColState r p z) (hu : ∀ w, w ≠ 0 → u 0 i w = f.eval (T * tH - x w * (P.EBED * P.L / P.v))) {w : Fin (z + 1)}
    (hw : w ≠ 0) :
    HasDerivAt (fun s : ℝ => f.eval (s * tH - x w * (P.EBED * P.L / P.v))) (m.rhs P tH cin u 0 i w) T := by
  set τ := P.EBED * P.L / P.v with hτ
  have hflux : m.flux P (setInlet u cin) i w = 0 := by
    unfold ColModel.flux fluxJ implicitRef
    rw [if_neg hi]
    simp only [hk, neg_zero, zero_mul]
  have hC : ∀ w', setInlet u cin 0 i w' = (f.comp (C (T * tH) - C τ * X)).eval (x w') := by
    intro w'
    rw [eval_comp]
    simp only [eval_sub, eval_mul, eval_C, eval_X]
    by_cases h : w' = 0
    · rw [h, hx0, mul_zero, sub_zero, ← hc]; exact if_pos ⟨rfl, rfl⟩
    · rw [show setInlet u cin 0 i w' = u 0 i w' from if_neg fun h' => h h'.2, hu w' h, mul_comm (x w')]
  have hdeg : (f.comp (C (T * tH) - C τ * X)).natDegree ≤ d := by
    refine le_trans natDegree_comp_le ?_
    have : (C (T * tH) - C τ * X : ℝ[X]).natDegree ≤ 1 := by
      refine le_trans (natDegree_sub_le _ _) ?_
      simp only [natDegree_C]
      exact max_le (by omega) (by rw [← smul_eq_C_mul]; exact le_trans (natDegree_smul_le _ _) natDegree_X_le)
    calc f.natDegree * _ ≤ f.natDegree * 1 := Nat.mul_le_mul_left _ this
      _ ≤ d := by omega
  have hrate : m.rhs P tH cin u 0 i w = (derivative f).eval (T * tH - x w * τ) * tH := by
    rw [rhs_eq, assemble_liq, if_neg hw]
    unfold liqRate
    rw [hflux]
    simp only [hC]
    rw [hA _ hdeg w hw, derivative_comp, eval_mul, eval_comp]
    simp only [eval_sub, eval_mul, eval_C, eval_X, derivative_sub, derivative_mul, derivative_C, derivative_X, zero_mul, zero_add,
      zero_sub, mul_one, eval_neg]
    rw [mul_comm (x w)]
    rw [hτ]
    field_simp
    ring
  rw [hrate]
  have h1 : HasDerivAt (fun s : ℝ => s * tH - x w * τ) tH T := by
    simpa using ((hasDerivAt_id T).mul_const tH).sub_const (x w * τ)
  exact (f.hasDerivAt (T * tH - x w * τ)).comp T h1

/-- Hypotheses of C155 and C157 together, for a moving state: beads that take nothing up, an influent rising in time, and the
ramp it makes along the bed; an exact solution for all times, for every number of points. -/
example (m : ℕ) (leg : Fin m → ℝ) (h : Spec.ShJacobiRoots m 1 1 leg) (t1 : ℝ) :
    Spec.Solves colComp (fun t u => ColModel.hsdm.rhs (r := 0) (p := 1) (z := m + 1)
      ⟨1 / 2, 1, 1 / 2, 1, 1, 0, fun _ => 0, fun _ => 0, fun _ => 0, fun _ => 1, fun _ => 1, aMat (axialNodes leg), fun _ _ => 0,
        fun _ => 1 / 3⟩ 1 (fun _ => t) u) 0 t1
      (fun t a _ w => if a = 0 ∧ w ≠ 0 then t - axialNodes leg w else 0) := by
  set P : ColParams 0 1 (m + 1) := ⟨1 / 2, 1, 1 / 2, 1, 1, 0, fun _ => 0, fun _ => 0, fun _ => 0, fun _ => 1, fun _ => 1,
    aMat (axialNodes leg), fun _ _ => 0, fun _ => 1 / 3⟩ with hP
  intro t _ a
  obtain ⟨a, i, w⟩ := a
  have hflux : ∀ u i w, ColModel.hsdm.flux P u i w = 0 := by
    intro u i w
    unfold ColModel.flux fluxJ implicitRef
    by_cases hi : i = 0 <;> simp [hi, hP]
  induction a using Fin.cases with
  | zero =>
    by_cases hw : w = 0
    · subst hw
      simp only [colComp]
      rw [inlet_rate]
      simpa using hasDerivWithinAt_const t (Set.Icc 0 t1) (0 : ℝ)
    · have hsum : ∑ w', aMat (axialNodes leg) w w' * setInlet (r := 0) (p := 1)
          (fun a _ w => if a = 0 ∧ w ≠ 0 then t - axialNodes leg w else 0) (fun _ => t) 0 i w' = -1 := by
        have := differentiates_single h.1 h.2.1 (C t - X) (by
          refine le_trans (natDegree_sub_le _ _) ?_
          simp) w hw
        simp only [eval_sub, eval_C, eval_X, derivative_sub, derivative_C, derivative_X, zero_sub, eval_neg, eval_one] at this
        rw [← this]
        refine Finset.sum_congr rfl fun w' _ => ?_
        congr 1
        unfold setInlet
        by_cases h' : w' = 0
        · subst h'; simp [axialNodes]
        · simp [h']
      simp only [colComp]
      rw [rhs_eq, assemble_liq, if_neg hw]
      unfold liqRate
      rw [hflux]
      simp only [hP]
      rw [hsum]
      simp only [ne_eq, hw, not_false_eq_true, and_self, if_true]
      norm_num
      simpa using ((hasDerivAt_id t).sub_const (axialNodes leg w)).hasDerivWithinAt
  | succ k =>
    simp only [colComp]
    rw [rhs_eq, assemble_bead, if_pos (by omega : k = Fin.last 0), hflux]
    simp
    exact hasDerivWithinAt_const t (Set.Icc 0 t1) (0 : ℝ)

end iex

/-! ### C156, carbon -/

section gac
variable {n r z : ℕ}

/-- Component of a state of the carbon column. -/
def gacComp (a : Fin n × Fin (r + 2) × Fin (z + 1)) (y : GacState n r z) : ℝ := y a.1 a.2.1 a.2.2

/-- Specification: what the carbon column holds of compound `i` per volume of bed water: the water and `dg` times the mean of
each bead (`3 ∑ wr y`), averaged over the bed with weights `g`. -/
noncomputable def Spec.gacContent (dg : ℝ) (wr : Fin (r + 1) → ℝ) (g : Fin (z + 1) → ℝ) (y : GacState n r z) (i : Fin n) : ℝ :=
  ∑ w, g w * (y i (Fin.last (r + 1)) w + 3 * dg * ∑ k : Fin (r + 1), wr k * y i k.castSucc w)

/-- C156. What the column holds changes at the rate of what flows in minus what flows out, for every compound and whatever
fouling and tortuosity do. -/
theorem c156_rate (D : GacDim n r z) (hz : 1 ≤ z) (hw : D.wr (Fin.last r) ≠ 0) (cinfl foul fac : Fin n → ℝ)
    (y : GacState n r z) (i : Fin n) {dg : ℝ} (hdg : dg ≠ 0) (hdgI : D.dgI i = 1 / dg) {g : Fin (z + 1) → ℝ}
    (hg0 : g 0 = 0) (hg : Spec.Telescopes D.az g) :
    Spec.gacContent dg D.wr g (gacRhs D cinfl foul fac y) i =
      D.dg1 * (cinfl i - y i (Fin.last (r + 1)) (Fin.last z)) := by
  have hlast : Fin.last z ≠ 0 := by
    intro h; have := congrArg Fin.val h; simp at this; omega
  have hc := hg (fun w' => Spec.bulk cinfl y i w')
  have e0 : Spec.bulk cinfl y i 0 = cinfl i := if_pos rfl
  have e1 : Spec.bulk cinfl y i (Fin.last z) = y i (Fin.last (r + 1)) (Fin.last z) := if_neg hlast
  rw [e0, e1] at hc
  have : ∀ w, g w * (gacRhs D cinfl foul fac y i (Fin.last (r + 1)) w +
      3 * dg * ∑ k : Fin (r + 1), D.wr k * gacRhs D cinfl foul fac y i k.castSucc w) =
      -D.dg1 * (g w * ∑ w', D.az w w' * Spec.bulk cinfl y i w') := by
    intro w
    by_cases h0 : w = 0
    · rw [h0, hg0]; ring
    · rw [c49_exchange D hw cinfl foul fac y i hdg hdgI h0]; ring
  unfold Spec.gacContent
  rw [Finset.sum_congr rfl fun w _ => this w, ← Finset.mul_sum, hc]
  ring

/-- C156. In seconds: one bed volume of water per `tau`. -/
theorem c156_seconds (G : GacCol) (cs : Fin n → GacComp) (hz : 1 ≤ z) {wr : Fin (r + 1) → ℝ} (hw : wr (Fin.last r) ≠ 0)
    (br : Fin (r + 1) → Fin (r + 1) → ℝ) (az : Fin (z + 1) → Fin (z + 1) → ℝ) (cinfl foul fac : Fin n → ℝ)
    (y : GacState n r z) (i : Fin n) (ht : 0 < G.tau) (hd : 0 < dgtOf G cs) (hi : dgOf G (cs i) ≠ 0)
    {g : Fin (z + 1) → ℝ} (hg0 : g 0 = 0) (hg : Spec.Telescopes az g) :
    perSecond G cs (Spec.gacContent (dgOf G (cs i)) wr g (gacRhs (gacDim G cs wr br az) cinfl foul fac y) i) =
      1 / G.tau * (cinfl i - y i (Fin.last (r + 1)) (Fin.last z)) := by
  have h := c156_rate (gacDim G cs wr br az) hz hw cinfl foul fac y i hi rfl hg0 hg
  have e : Spec.gacContent (dgOf G (cs i)) wr g (gacRhs (gacDim G cs wr br az) cinfl foul fac y) i =
      dg1Of G cs * (cinfl i - y i (Fin.last (r + 1)) (Fin.last z)) := h
  rw [e]
  have h1 : 1 + dgtOf G cs ≠ 0 := by linarith
  unfold perSecond tconvOf dg1Of
  field_simp

theorem gacContent_comp (dg : ℝ) (wr : Fin (r + 1) → ℝ) (g : Fin (z + 1) → ℝ) (i : Fin n) :
    ∃ c : Fin (z + 1) × Fin (r + 2) → ℝ, ∀ y : GacState n r z,
      Spec.gacContent dg wr g y i = ∑ b, c b * gacComp (i, b.2, b.1) y := by
  refine ⟨fun b => g b.1 * Fin.lastCases (motive := fun _ => ℝ) 1 (fun k => 3 * dg * wr k) b.2, fun y => ?_⟩
  unfold Spec.gacContent gacComp
  rw [Fintype.sum_prod_type]
  apply Finset.sum_congr rfl
  intro w _
  symm
  rw [Fin.sum_univ_castSucc]
  simp only [Fin.lastCases_last, Fin.lastCases_castSucc, Finset.mul_sum, mul_add]
  conv_rhs => rw [add_comm]
  congr 1
  · apply Finset.sum_congr rfl
    intro k _; ring
  · ring

/-- C156. Along every exact solution, between any two times, with any influent, fouling and tortuosity in time. -/
theorem c156_solutions (D : GacDim n r z) (hz : 1 ≤ z) (hw : D.wr (Fin.last r) ≠ 0) (cinfl foul fac : ℝ → Fin n → ℝ)
    (i : Fin n) {dg : ℝ} (hdg : dg ≠ 0) (hdgI : D.dgI i = 1 / dg) {g : Fin (z + 1) → ℝ} (hg0 : g 0 = 0)
    (hg : Spec.Telescopes D.az g) {t0 t1 : ℝ} (h01 : t0 ≤ t1) {y : ℝ → GacState n r z}
    (h : Spec.Solves gacComp (fun t u => gacRhs D (cinfl t) (foul t) (fac t) u) t0 t1 y)
    (hi : IntervalIntegrable (fun t => cinfl t i) MeasureTheory.volume t0 t1) :
    Spec.gacContent dg D.wr g (y t1) i - Spec.gacContent dg D.wr g (y t0) i =
      D.dg1 * ((∫ t in t0..t1, cinfl t i) - ∫ t in t0..t1, y t i (Fin.last (r + 1)) (Fin.last z)) := by
  obtain ⟨c, hc⟩ := gacContent_comp (n := n) dg D.wr g i
  have hco : IntervalIntegrable (fun t => y t i (Fin.last (r + 1)) (Fin.last z)) MeasureTheory.volume t0 t1 := by
    apply ContinuousOn.intervalIntegrable
    rw [Set.uIcc_of_le h01]
    exact solves_continuousOn h (i, Fin.last (r + 1), Fin.last z)
  have := solves_balance h01 h c (fun b => (i, b.2, b.1))
    (fun t => D.dg1 * (cinfl t i - y t i (Fin.last (r + 1)) (Fin.last z)))
    (fun t _ => by rw [← hc, c156_rate D hz hw (cinfl t) (foul t) (fac t) (y t) i hdg hdgI hg0 hg])
    ((hi.sub hco).const_mul _)
  rw [hc, hc, this, intervalIntegral.integral_const_mul, intervalIntegral.integral_sub hi hco]

/-- C156. One step of any time stepping scheme. -/
theorem c156_step (D : GacDim n r z) (hz : 1 ≤ z) (hw : D.wr (Fin.last r) ≠ 0) (cinfl foul fac : ℝ → Fin n → ℝ)
    (i : Fin n) {dg : ℝ} (hdg : dg ≠ 0) (hdgI : D.dgI i = 1 / dg) {g : Fin (z + 1) → ℝ} (hg0 : g 0 = 0)
    (hg : Spec.Telescopes D.az g) (M l : ℕ) (ys : Fin M → GacState n r z) (a : Fin M → ℝ)
    (T c : Fin l → ℝ) (u : Fin l → GacState n r z) :
    Spec.gacContent dg D.wr g
        (∑ j, a j • ys j + ∑ j, c j • gacRhs D (cinfl (T j)) (foul (T j)) (fac (T j)) (u j)) i =
      ∑ j, a j * Spec.gacContent dg D.wr g (ys j) i +
        ∑ j, c j * (D.dg1 * (cinfl (T j) i - u j i (Fin.last (r + 1)) (Fin.last z))) := by
  obtain ⟨d, hd⟩ := gacContent_comp (n := n) dg D.wr g i
  have hr : ∀ j, D.dg1 * (cinfl (T j) i - u j i (Fin.last (r + 1)) (Fin.last z)) =
      ∑ b, d b * gacComp (i, b.2, b.1) (gacRhs D (cinfl (T j)) (foul (T j)) (fac (T j)) (u j)) := by
    intro j; rw [← hd, c156_rate D hz hw _ _ _ (u j) i hdg hdgI hg0 hg]
  simp only [hr, hd]
  unfold gacComp
  simp only [Pi.add_apply, Finset.sum_apply, Pi.smul_apply, smul_eq_mul, mul_add, Finset.sum_add_distrib, Finset.mul_sum]
  congr 1
  all_goals
    rw [Finset.sum_comm]
    refine Finset.sum_congr rfl fun j _ => Finset.sum_congr rfl fun b _ => ?_
    ring

end gac

/-- The weights exist for every number of axial points and elements, so the hypotheses can be met. -/
example (m NE : ℕ) (hm : 1 ≤ m) (hNE : 1 ≤ NE) : ∃ (leg : Fin m → ℝ) (g : Fin (NE * (m + 1) + 1) → ℝ),
    Spec.BedMean (fun w => gridPt NE (m + 1) (axialNodes leg) w) (2 * m - 1) g ∧
      Spec.Telescopes (fun w w' => advOp NE (m + 2) (arr2 (aMat (axialNodes leg))) w w') g := by
  obtain ⟨leg, h, -⟩ := legendre_exists m
  exact ⟨leg, c155_weights hm h hNE⟩

end WTM
