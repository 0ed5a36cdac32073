import Verif.Lemmas.AxialForm
import Verif.Lemmas.Kernel
import Verif.Props.Reference

/-! The axial operator on elements of three points, as `solve` uses it in element mode (`advect_operator(NE, 3)`, hsdmix.py:369-370): a product
in which it never adds energy, whatever the number of elements. -/
set_option autoImplicit false
namespace WTM
open BigOperators

theorem half_nodes {leg : Fin 1 → ℝ} (h : Spec.ShJacobiRoots 1 1 1 leg) : axialNodes leg = ![0, 1 / 2, 1] := by
  rw [(one_root leg).1 h]
  ext i
  fin_cases i <;> rfl

theorem half_aMat : aMat ![(0:ℝ), 1 / 2, 1] = fun i j => (!![-3, 4, -1; -1, 0, 1; 1, -4, 3] : Matrix (Fin 3) (Fin 3) ℝ) i j := by
  have p0 := px3_0 (a := 0) (b := 1 / 2) (c := 1) (by norm_num) (by norm_num)
  have p1 := px3_1 (a := 0) (b := 1 / 2) (c := 1) (by norm_num) (by norm_num)
  have p2 := px3_2 (a := 0) (b := 1 / 2) (c := 1) (by norm_num) (by norm_num)
  ext i j
  fin_cases i <;> fin_cases j <;>
    simp only [aMat, Fin.zero_eta, Fin.mk_one, Fin.reduceFinMk, p0, p1, p2, if_true,
      Matrix.cons_val_zero, Matrix.cons_val_one, Matrix.cons_val, Matrix.of_apply, Fin.reduceEq, if_false] <;> norm_num

theorem half_strict : StrictMono (![0, 1 / 2, 1] : Fin 3 → ℝ) := by
  intro i j h
  fin_cases i <;> fin_cases j <;> simp at h ⊢
  norm_num

/-- Middle of an element. -/
theorem elem_mid {NE : ℕ} (v : ℕ → ℝ) {k : ℕ} (hk : k < NE) :
    ∑ j ∈ Finset.range (NE * 2 + 1), advOp NE 3 (arr2 (aMat ![(0:ℝ), 1 / 2, 1])) (2 * k + 1) j * v j = NE * (v (2 * k + 2) - v (2 * k)) := by
  have := advOp_plain (M := 2) (x := ![(0:ℝ), 1 / 2, 1]) (by norm_num) v hk 1 (by norm_num) (Or.inl (by norm_num)) (by norm_num)
  rw [mul_comm k 2] at this
  refine Eq.trans this ?_
  unfold elemSlope
  rw [half_aMat, Fin.sum_univ_three, mul_comm k 2]
  simp
  refine Or.inl ?_
  ring

/-- Points between elements. -/
theorem elem_joint {NE : ℕ} (v : ℕ → ℝ) {k : ℕ} (hk : k + 1 < NE) :
    ∑ j ∈ Finset.range (NE * 2 + 1), advOp NE 3 (arr2 (aMat ![(0:ℝ), 1 / 2, 1])) (2 * k + 2) j * v j =
      NE * (2 * (v (2 * k + 3) - v (2 * k + 1)) - (v (2 * k + 4) - v (2 * k)) / 2) := by
  have := advOp_iface (M := 2) (x := ![(0:ℝ), 1 / 2, 1]) (by norm_num) half_strict v hk
  rw [show (k + 1) * 2 = 2 * k + 2 by ring] at this
  refine Eq.trans this ?_
  unfold elemSlope ifaceShare
  rw [half_aMat, Fin.sum_univ_three, Fin.sum_univ_three, mul_comm k 2, show (k + 1) * 2 = 2 * k + 2 by ring]
  simp [Fin.last]
  ring

/-- The outlet. -/
theorem elem_out {K : ℕ} (v : ℕ → ℝ) :
    ∑ j ∈ Finset.range ((K + 1) * 2 + 1), advOp (K + 1) 3 (arr2 (aMat ![(0:ℝ), 1 / 2, 1])) (2 * K + 2) j * v j =
      (K + 1) * (3 * v (2 * K + 2) - 4 * v (2 * K + 1) + v (2 * K)) := by
  have := advOp_plain (M := 2) (x := ![(0:ℝ), 1 / 2, 1]) (by norm_num) v (Nat.lt_succ_self K) 2 (by norm_num) (Or.inr rfl) (by norm_num)
  rw [mul_comm K 2] at this
  refine Eq.trans this ?_
  unfold elemSlope
  rw [half_aMat, Fin.sum_univ_three, mul_comm K 2]
  simp
  refine Or.inl ?_
  ring

theorem sum_pairs (f : ℕ → ℝ) (K : ℕ) : ∑ n ∈ Finset.range (K * 2), f n = ∑ k ∈ Finset.range K, (f (2 * k) + f (2 * k + 1)) := by
  induction K with
  | zero => simp
  | succ K ih =>
    rw [Finset.sum_range_succ, ← ih, show (K + 1) * 2 = K * 2 + 1 + 1 by ring, Finset.sum_range_succ, Finset.sum_range_succ, mul_comm K 2]
    ring

/-- What flows through the elements up to the `K`-th. -/
theorem joint_sums (v : ℕ → ℝ) (h0 : v 0 = 0) (K : ℕ) : ∑ k ∈ Finset.range K, (v (2 * k + 1) * (v (2 * k + 2) - v (2 * k)) +
    1 / 2 * v (2 * k + 2) * (2 * (v (2 * k + 3) - v (2 * k + 1)) - (v (2 * k + 4) - v (2 * k)) / 2)) =
    v (2 * K) * v (2 * K + 1) - 1 / 4 * (v (2 * K) * v (2 * K + 2)) := by
  induction K with
  | zero => simp [h0]
  | succ K ih =>
    rw [Finset.sum_range_succ, ih, show 2 * (K + 1) = 2 * K + 2 by ring]
    ring

/-- Weight of point `n` below the inlet, of `2 (K + 1)`. -/
noncomputable def elemWeight (K n : ℕ) : ℝ := if n = 2 * K + 1 then 1 / 4 else if n % 2 = 0 then 1 else 1 / 2

theorem elemWeight_pos (K n : ℕ) : 0 < elemWeight K n := by
  unfold elemWeight
  split
  · norm_num
  · split <;> norm_num

theorem exists_elem_form {z : ℕ} {A : Fin (z + 1) → Fin (z + 1) → ℝ} {L : (Fin z → ℝ) → ℝ} (G : Fin z → Fin z → ℝ)
    (symm : ∀ v w, G v w = G w v) (pos : ∀ c, 0 ≤ gdot G c c) (definite : ∀ c, gdot G c c = 0 → c = 0) (hL : ∀ c, 0 ≤ L c)
    (hl : ∀ c, gdot G c (fun w => ∑ w' : Fin z, A w.succ w'.succ * c w') = L c) (hb : ∀ c w, c w ^ 2 ≤ 4 * gdot G c c) :
    ∃ G, AxialForm A G ∧ (∀ c, gdot G c (fun w => ∑ w' : Fin z, A w.succ w'.succ * c w') = L c) ∧ ∀ c w, c w ^ 2 ≤ 4 * gdot G c c :=
  ⟨G, ⟨symm, pos, definite, fun c => by rw [hl]; exact hL c⟩, hl, hb⟩

theorem axialForm_elements {leg : Fin 1 → ℝ} (h : Spec.ShJacobiRoots 1 1 1 leg) (K : ℕ) :
    ∃ G, AxialForm (z := (K + 1) * 2) (fun w w' => advOp (K + 1) 3 (arr2 (aMat (axialNodes leg))) w w') G ∧
      (∀ c, gdot G c (fun w => ∑ w' : Fin ((K + 1) * 2), advOp (K + 1) 3 (arr2 (aMat (axialNodes leg))) (w.succ : Fin _) (w'.succ : Fin _) * c w') =
        3 / 4 * (K + 1) * c ⟨2 * K + 1, by omega⟩ ^ 2) ∧ ∀ c w, c w ^ 2 ≤ 4 * gdot G c c := by
  rw [half_nodes h]
  refine exists_elem_form (fun v w => if v = w then elemWeight K v else 0) ?_ ?_ ?_ (fun c => by positivity) ?_ ?_
  · intro v w
    by_cases e : v = w
    · rw [e]
    · rw [if_neg e, if_neg (Ne.symm e)]
  all_goals
    have hd : ∀ c d : Fin ((K + 1) * 2) → ℝ, gdot (fun v w => if v = w then elemWeight K v else 0) c d = ∑ v : Fin ((K + 1) * 2), elemWeight K v * (c v * d v) := by
      intro c d
      unfold gdot
      refine Finset.sum_congr rfl fun v _ => ?_
      rw [Finset.sum_eq_single v]
      · beta_reduce
        rw [if_pos rfl]
      · intro w _ hw
        beta_reduce
        rw [if_neg (Ne.symm hw), zero_mul]
      · intro hv
        exact absurd (Finset.mem_univ v) hv
    intro c
    rw [hd]
  · exact Finset.sum_nonneg fun v _ => mul_nonneg (elemWeight_pos K v).le (mul_self_nonneg _)
  · intro h0
    have := (Finset.sum_eq_zero_iff_of_nonneg fun (v : Fin ((K + 1) * 2)) _ => mul_nonneg (elemWeight_pos K v).le (mul_self_nonneg (c v))).1 h0
    funext v
    have h1 := this v (Finset.mem_univ v)
    rcases mul_eq_zero.1 h1 with h2 | h2
    · exact absurd h2 (elemWeight_pos K v).ne'
    · exact mul_self_eq_zero.1 h2
  · set v : ℕ → ℝ := fun n => if hn : 0 < n ∧ n < (K + 1) * 2 + 1 then c ⟨n - 1, by omega⟩ else 0 with hv
    have hvs : ∀ w : Fin ((K + 1) * 2), v ((w : ℕ) + 1) = c w := by
      intro w
      have hw := w.2
      simp only [hv]
      rw [dif_pos ⟨by omega, by omega⟩]
      congr 1
    have h0 : v 0 = 0 := by simp [hv]
    have hrow : ∀ w : Fin ((K + 1) * 2), ∑ w' : Fin ((K + 1) * 2), advOp (K + 1) 3 (arr2 (aMat ![(0:ℝ), 1 / 2, 1])) (w.succ : Fin _) (w'.succ : Fin _) * c w' =
        ∑ j ∈ Finset.range ((K + 1) * 2 + 1), advOp (K + 1) 3 (arr2 (aMat ![(0:ℝ), 1 / 2, 1])) ((w : ℕ) + 1) j * v j := by
      intro w
      rw [Finset.sum_range_succ', h0, mul_zero, add_zero, Finset.sum_range]
      refine Finset.sum_congr rfl fun w' _ => ?_
      rw [hvs, Fin.val_succ, Fin.val_succ]
    have e : ∑ w : Fin ((K + 1) * 2), elemWeight K w * (c w * ∑ w' : Fin ((K + 1) * 2),
        advOp (K + 1) 3 (arr2 (aMat ![(0:ℝ), 1 / 2, 1])) (w.succ : Fin _) (w'.succ : Fin _) * c w') =
        ∑ n ∈ Finset.range ((K + 1) * 2), elemWeight K n * (v (n + 1) * ∑ j ∈ Finset.range ((K + 1) * 2 + 1),
          advOp (K + 1) 3 (arr2 (aMat ![(0:ℝ), 1 / 2, 1])) (n + 1) j * v j) := by
      rw [Finset.sum_range]
      refine Finset.sum_congr rfl fun w _ => ?_
      rw [hrow, hvs]
    rw [e, sum_pairs, Finset.sum_range_succ]
    have hin : ∀ k ∈ Finset.range K, (elemWeight K (2 * k) * (v (2 * k + 1) * ∑ j ∈ Finset.range ((K + 1) * 2 + 1),
          advOp (K + 1) 3 (arr2 (aMat ![(0:ℝ), 1 / 2, 1])) (2 * k + 1) j * v j) +
        elemWeight K (2 * k + 1) * (v (2 * k + 1 + 1) * ∑ j ∈ Finset.range ((K + 1) * 2 + 1),
          advOp (K + 1) 3 (arr2 (aMat ![(0:ℝ), 1 / 2, 1])) (2 * k + 1 + 1) j * v j)) =
        (K + 1) * (v (2 * k + 1) * (v (2 * k + 2) - v (2 * k)) +
          1 / 2 * v (2 * k + 2) * (2 * (v (2 * k + 3) - v (2 * k + 1)) - (v (2 * k + 4) - v (2 * k)) / 2)) := by
      intro k hk
      have hk' := Finset.mem_range.1 hk
      rw [elem_mid v (by omega), show 2 * k + 1 + 1 = 2 * k + 2 by ring, elem_joint v (by omega)]
      have w1 : elemWeight K (2 * k) = 1 := by
        unfold elemWeight
        rw [if_neg (by omega), if_pos (by omega)]
      have w2 : elemWeight K (2 * k + 1) = 1 / 2 := by
        unfold elemWeight
        rw [if_neg (by omega), if_neg (by omega)]
      rw [w1, w2]
      push_cast
      ring
    rw [Finset.sum_congr rfl hin, ← Finset.mul_sum, joint_sums v h0, elem_mid v (Nat.lt_succ_self K), show 2 * K + 1 + 1 = 2 * K + 2 by ring,
      elem_out]
    have w1 : elemWeight K (2 * K) = 1 := by
      unfold elemWeight
      rw [if_neg (by omega), if_pos (by omega)]
    have w2 : elemWeight K (2 * K + 1) = 1 / 4 := by
      unfold elemWeight
      rw [if_pos rfl]
    rw [w1, w2]
    have hl := hvs ⟨2 * K + 1, by omega⟩
    simp only at hl
    rw [← hl]
    push_cast
    ring
  · intro w
    have h1 := Finset.single_le_sum (f := fun v : Fin ((K + 1) * 2) => elemWeight K v * (c v * c v))
      (fun v _ => mul_nonneg (elemWeight_pos K v).le (mul_self_nonneg _)) (Finset.mem_univ w)
    have h2 : 1 / 4 ≤ elemWeight K w := by
      unfold elemWeight
      split
      · norm_num
      · split <;> norm_num
    have h3 := mul_le_mul_of_nonneg_right h2 (mul_self_nonneg (c w))
    nlinarith

end WTM
