import Verif.Props.Advect
import Verif.Lemmas.Energy

/-! The advection operator of `colloc.py` on arbitrary values: its rows and the profiles it does not move. -/
set_option autoImplicit false
namespace WTM
open Polynomial BigOperators

section
variable {NE M : ℕ} {x : Fin (M + 1) → ℝ}

/-- One-sided derivative at node `m` of element `k`: the element matrix applied to the element's values. -/
noncomputable def elemSlope (NE M : ℕ) (x : Fin (M + 1) → ℝ) (v : ℕ → ℝ) (k : ℕ) (m : Fin (M + 1)) : ℝ :=
  (NE : ℝ) * ∑ j : Fin (M + 1), aMat x m j * v (k * M + (j : ℕ))

theorem elemSlope_range (v : ℕ → ℝ) (k : ℕ) (m : Fin (M + 1)) :
    ∑ j ∈ Finset.range (M + 1), (NE : ℝ) * arr2 (aMat x) (m : ℕ) j * v (k * M + j) = elemSlope NE M x v k m := by
  unfold elemSlope
  rw [Finset.sum_range, Finset.mul_sum]
  refine Finset.sum_congr rfl (fun j _ => ?_)
  rw [arr2, dif_pos ⟨m.2, j.2⟩]
  ring

/-- Rows that are not interfaces. -/
theorem advOp_plain (hM : 0 < M) (v : ℕ → ℝ) {k : ℕ} (hk : k < NE) (m : Fin (M + 1))
    (hi : 0 < k * M + (m : ℕ)) (hno : (m : ℕ) < M ∨ k + 1 = NE) (h0 : 0 < (m : ℕ)) :
    ∑ j ∈ Finset.range (NE * M + 1), advOp NE (M + 1) (arr2 (aMat x)) (k * M + (m : ℕ)) j * v j =
      elemSlope NE M x v k m := by
  rw [← elemSlope_range]
  set A0 := arr2 (aMat x) with hA0
  have hm := m.2
  have hkM : ∀ k', (k' + 1) * M = k' * M + M := fun k' => by ring
  have hmono : ∀ {p q : ℕ}, p ≤ q → p * M ≤ q * M := fun h => Nat.mul_le_mul_right M h
  have hno' : ∀ k'' < NE - 1, k * M + (m : ℕ) ≠ (k'' + 1) * M := by
    intro k'' hk'' e
    rcases Nat.lt_or_ge k'' k with hlt | hge
    · have := hmono (show k'' + 1 ≤ k by omega); omega
    · rcases hno with hno | hno
      · have := hmono (show k + 1 ≤ k'' + 1 by omega)
        rw [hkM k] at this; omega
      · omega
  have huniq : ∀ k'' < NE, k'' * M ≤ k * M + (m : ℕ) → k * M + (m : ℕ) ≤ (k'' + 1) * M → k'' = k := by
    intro k'' hk'' ha hb
    by_contra hne
    rcases Nat.lt_or_ge k'' k with hlt | hge
    · have := hmono (show k'' + 1 ≤ k by omega)
      exact hno' k'' (by omega) (by omega)
    · have h3 := hmono (show k + 1 ≤ k'' by omega)
      rw [hkM] at h3
      obtain ⟨c, rfl⟩ : ∃ c, k'' = c + 1 := ⟨k'' - 1, by omega⟩
      exact hno' c (by omega) (by omega)
  have hrow : ∀ j, advOp NE (M + 1) A0 (k * M + (m : ℕ)) j =
      if k * M ≤ j ∧ j < k * M + (M + 1) then (NE : ℝ) * A0 m (j - k * M) else 0 := by
    intro j
    unfold advOp
    simp only [zeroRow]
    rw [if_neg (by omega), advCont_other hno']
    rw [advBlocks_row hk ⟨by omega, by rw [hkM]; omega⟩ huniq]
    simp
  simp only [hrow]
  have hle := hmono (show k + 1 ≤ NE by omega)
  rw [hkM] at hle
  exact sum_window (NE * M + 1) (k * M) (M + 1) (by omega) (fun c => (NE : ℝ) * A0 m c) v

/-- Share of the right slope in an interface row. -/
noncomputable def ifaceShare (x : Fin (M + 1) → ℝ) : ℝ :=
  aMat x (Fin.last M) (Fin.last M) / (aMat x (Fin.last M) (Fin.last M) - aMat x 0 0)

theorem aMat_first_neg (hM : 0 < M) (hx : StrictMono x) : aMat x 0 0 < 0 := by
  rw [aMat_diag hx.injective]
  refine Finset.sum_neg (fun j hj => ?_) ⟨Fin.last M, Finset.mem_erase.2 ⟨?_, Finset.mem_univ _⟩⟩
  · have := (Finset.mem_erase.1 hj).1
    exact inv_lt_zero.2 (sub_neg.2 (hx (Fin.pos_iff_ne_zero.2 this)))
  · intro h; have := congrArg Fin.val h; simp at this; omega

theorem aMat_last_pos (hM : 0 < M) (hx : StrictMono x) : 0 < aMat x (Fin.last M) (Fin.last M) := by
  rw [aMat_diag hx.injective]
  refine Finset.sum_pos (fun j hj => ?_) ⟨0, Finset.mem_erase.2 ⟨?_, Finset.mem_univ _⟩⟩
  · have := (Finset.mem_erase.1 hj).1
    exact inv_pos.2 (sub_pos.2 (hx (lt_of_le_of_ne (Fin.le_last j) this)))
  · intro h; have := congrArg Fin.val h; simp at this; omega

theorem ifaceShare_mem (hM : 0 < M) (hx : StrictMono x) : 0 < ifaceShare x ∧ ifaceShare x < 1 := by
  have h1 := aMat_first_neg hM hx
  have h2 := aMat_last_pos hM hx
  have h3 : 0 < aMat x (Fin.last M) (Fin.last M) - aMat x 0 0 := by linarith
  exact ⟨div_pos h2 h3, (div_lt_one h3).2 (by linarith)⟩

/-- Interface rows: the weighted mean of the slopes on both sides. -/
theorem advOp_iface (hM : 0 < M) (hx : StrictMono x) (v : ℕ → ℝ) {k : ℕ} (hk : k + 1 < NE) :
    ∑ j ∈ Finset.range (NE * M + 1), advOp NE (M + 1) (arr2 (aMat x)) ((k + 1) * M) j * v j =
      (1 - ifaceShare x) * elemSlope NE M x v k (Fin.last M) + ifaceShare x * elemSlope NE M x v (k + 1) 0 := by
  have e1 := elemSlope_range (NE := NE) (x := x) v k (Fin.last M)
  have e2 := elemSlope_range (NE := NE) (x := x) v (k + 1) 0
  have hkM : ∀ k', (k' + 1) * M = k' * M + M := fun k' => by ring
  have hmono : ∀ {p q : ℕ}, p ≤ q → p * M ≤ q * M := fun h => Nat.mul_le_mul_right M h
  rw [← e1, ← e2]
  have hM1 : arr2 (aMat x) M M = aMat x (Fin.last M) (Fin.last M) := by
    rw [arr2, dif_pos ⟨by omega, by omega⟩]; rfl
  have h00 : arr2 (aMat x) 0 0 = aMat x 0 0 := by
    rw [arr2, dif_pos ⟨by omega, by omega⟩]; rfl
  unfold ifaceShare
  rw [← hM1, ← h00]
  have hQ : arr2 (aMat x) M M - arr2 (aMat x) 0 0 ≠ 0 := by
    rw [hM1, h00]; exact (adv_Q_pos hM hx).ne'
  simp only [Fin.val_last, Fin.val_zero]
  generalize arr2 (aMat x) = A0 at *
  have hpos : 0 < (k + 1) * M := Nat.mul_pos (by omega) hM
  have hrow : ∀ j, advOp NE (M + 1) A0 ((k + 1) * M) j =
      (if k * M ≤ j ∧ j < k * M + M then
        (fun c => (NE : ℝ) * A0 M c - (NE : ℝ) * A0 M M / (A0 M M - A0 0 0) * A0 M c) (j - k * M) else 0) +
      (if (k + 1) * M + 1 ≤ j ∧ j < (k + 1) * M + 1 + M then
        (fun c => (NE : ℝ) * A0 M M / (A0 M M - A0 0 0) * A0 0 (c + 1)) (j - ((k + 1) * M + 1)) else 0) := by
    intro j
    unfold advOp
    simp only [zeroRow]
    rw [if_neg (by omega), advCont_row hM (by omega : k < NE - 1)]
    have q1 := hkM k
    have q2 : (k + 2) * M = (k + 1) * M + M := by ring
    by_cases c1 : k * M ≤ j ∧ j < (k + 1) * M
    · rw [if_pos c1, if_pos ⟨c1.1, by omega⟩, if_neg (by omega), add_zero]
    · rw [if_neg c1, if_neg (show ¬ (k * M ≤ j ∧ j < k * M + M) by omega), zero_add]
      by_cases c2 : (k + 1) * M + 1 ≤ j ∧ j < (k + 2) * M + 1
      · rw [if_pos c2, if_pos ⟨c2.1, by omega⟩]
      · rw [if_neg c2, if_neg (by omega)]
  rw [Finset.sum_congr rfl (fun j _ => by rw [hrow j, add_mul]), Finset.sum_add_distrib]
  have q1 := hkM k
  have q2 : (k + 2) * M = (k + 1) * M + M := by ring
  have hle := hmono (show k + 2 ≤ NE by omega)
  rw [sum_window (NE * M + 1) (k * M) M (by omega)
      (fun c => (NE : ℝ) * A0 M c - (NE : ℝ) * A0 M M / (A0 M M - A0 0 0) * A0 M c) v,
    sum_window (NE * M + 1) ((k + 1) * M + 1) M (by omega)
      (fun c => (NE : ℝ) * A0 M M / (A0 M M - A0 0 0) * A0 0 (c + 1)) v]
  have s1 : ∑ c ∈ Finset.range M, ((NE : ℝ) * A0 M c - (NE : ℝ) * A0 M M / (A0 M M - A0 0 0) * A0 M c) *
      v (k * M + c) = (1 - A0 M M / (A0 M M - A0 0 0)) *
        ∑ c ∈ Finset.range M, (NE : ℝ) * A0 M c * v (k * M + c) := by
    rw [Finset.mul_sum]
    exact Finset.sum_congr rfl (fun c _ => by ring)
  have s2 : ∑ c ∈ Finset.range M, ((NE : ℝ) * A0 M M / (A0 M M - A0 0 0) * A0 0 (c + 1)) *
      v ((k + 1) * M + 1 + c) = (A0 M M / (A0 M M - A0 0 0)) *
        ∑ c ∈ Finset.range M, (NE : ℝ) * A0 0 (c + 1) * v ((k + 1) * M + (c + 1)) := by
    rw [Finset.mul_sum]
    refine Finset.sum_congr rfl (fun c _ => ?_)
    rw [show (k + 1) * M + 1 + c = (k + 1) * M + (c + 1) by ring]; ring
  simp only [s1, s2]
  rw [Finset.sum_range_succ (n := M), Finset.sum_range_succ' (n := M), add_zero, ← hkM]
  field_simp
  ring

/-- An element whose interior slopes and slope at one end vanish holds one value. -/
theorem elem_const (hx : StrictMono x) (hNE : 1 ≤ NE) (v : ℕ → ℝ) (k : ℕ) (e : Fin (M + 1))
    (h : ∀ m, m ≠ e → elemSlope NE M x v k m = 0) (i j : Fin (M + 1)) : v (k * M + (i : ℕ)) = v (k * M + (j : ℕ)) := by
  set q : Fin (M + 1) → ℝ := fun j => v (k * M + (j : ℕ)) with hq
  have hz : derivative (interpPoly x q) = 0 := by
    refine eq_zero_of_degree_lt_of_eval_finset_eq_zero ((Finset.univ.erase e).image x) ?_ ?_
    · rw [Finset.card_image_of_injective _ hx.injective, Finset.card_erase_of_mem (Finset.mem_univ e),
        Finset.card_univ, Fintype.card_fin, Nat.add_sub_cancel]
      have hd := interpPoly_degree hx.injective (Nat.succ_pos M) q
      rw [degree_lt_iff_coeff_zero] at hd ⊢
      intro c hc
      rw [coeff_derivative, hd (c + 1) (by omega), zero_mul]
    · intro y hy
      obtain ⟨m, hm, rfl⟩ := Finset.mem_image.1 hy
      have h1 := aMat_apply hx.injective (interpPoly_degree hx.injective (Nat.succ_pos M) q) m
      simp only [interpPoly_eval hx.injective] at h1
      rw [← h1]
      have h2 := h m (Finset.mem_erase.1 hm).1
      unfold elemSlope at h2
      rcases mul_eq_zero.1 h2 with h' | h'
      · have : (0:ℝ) < NE := by exact_mod_cast hNE
        linarith
      · exact h'
  have hc := eq_C_of_natDegree_eq_zero (derivative_eq_zero.1 hz)
  have h1 := interpPoly_eval hx.injective q i
  have h2 := interpPoly_eval hx.injective q j
  rw [hc, eval_C] at h1 h2
  show q i = q j
  rw [← h1, ← h2]

/-- The element's slopes vanish everywhere when it holds one value. -/
theorem slope_const (hx : StrictMono x) (v : ℕ → ℝ) (k : ℕ)
    (h : ∀ j : Fin (M + 1), v (k * M + (j : ℕ)) = v (k * M)) (m : Fin (M + 1)) : elemSlope NE M x v k m = 0 := by
  unfold elemSlope
  simp only [h]
  rw [← Finset.sum_mul]
  have h1 := aMat_apply hx.injective (f := (1 : ℝ[X])) (by
    rw [degree_one]; exact_mod_cast Nat.succ_pos M) m
  simp at h1
  rw [h1]; simp

/-- Only uniform profiles are at rest under the advection operator, its inlet row (always zero) aside. -/
theorem advOp_kernel (hNE : 1 ≤ NE) (hM : 0 < M) (hx : StrictMono x) (v : ℕ → ℝ)
    (h : ∀ i, 0 < i → i < NE * M + 1 →
      ∑ j ∈ Finset.range (NE * M + 1), advOp NE (M + 1) (arr2 (aMat x)) i j * v j = 0) :
    ∀ i < NE * M + 1, v i = v 0 := by
  have hkM : ∀ k', (k' + 1) * M = k' * M + M := fun k' => by ring
  have hmono : ∀ {p q : ℕ}, p ≤ q → p * M ≤ q * M := fun h => Nat.mul_le_mul_right M h
  -- interior rows
  have hint : ∀ k < NE, ∀ m : Fin (M + 1), m ≠ 0 → (m : ℕ) < M → elemSlope NE M x v k m = 0 := by
    intro k hk m hm0 hm
    have hp : 0 < (m : ℕ) := Nat.pos_of_ne_zero (fun h => hm0 (Fin.ext h))
    have := hmono (show k + 1 ≤ NE by omega)
    rw [hkM] at this
    rw [← advOp_plain hM v hk m (by omega) (Or.inl hm) hp]
    exact h _ (by omega) (by omega)
  have key : ∀ c k, k + 1 + c = NE → ∀ j : Fin (M + 1), v (k * M + (j : ℕ)) = v (k * M) := by
    intro c
    induction c with
    | zero =>
      intro k hk j
      have hlast : elemSlope NE M x v k (Fin.last M) = 0 := by
        rw [← advOp_plain (NE := NE) hM v (by omega) (Fin.last M) (by simp; omega) (Or.inr (by omega)) (by simpa using hM)]
        have := hkM k
        have e : (k + 1) * M = NE * M := by rw [show k + 1 = NE by omega]
        exact h _ (by simp; omega) (by simp; omega)
      have := elem_const hx hNE v k 0 (fun m hm => by
        by_cases hml : (m : ℕ) < M
        · exact hint k (by omega) m hm hml
        · have : m = Fin.last M := Fin.ext (by simp; have := m.2; omega)
          rw [this]; exact hlast) j 0
      simpa using this
    | succ c ih =>
      intro k hk j
      have hR : elemSlope NE M x v (k + 1) 0 = 0 := slope_const hx v (k + 1) (ih (k + 1) (by omega)) 0
      have hlast : elemSlope NE M x v k (Fin.last M) = 0 := by
        have h1 := advOp_iface (NE := NE) hM hx v (show k + 1 < NE by omega)
        have hle := hmono (show k + 1 ≤ NE by omega)
        have hpos : 0 < (k + 1) * M := Nat.mul_pos (by omega) hM
        rw [h _ hpos (by omega), hR, mul_zero, add_zero] at h1
        have h2 := (ifaceShare_mem hM hx).2
        rcases mul_eq_zero.1 h1.symm with h' | h'
        · linarith
        · exact h'
      have := elem_const hx hNE v k 0 (fun m hm => by
        by_cases hml : (m : ℕ) < M
        · exact hint k (by omega) m hm hml
        · have : m = Fin.last M := Fin.ext (by simp; have := m.2; omega)
          rw [this]; exact hlast) j 0
      simpa using this
  have ends : ∀ k ≤ NE, v (k * M) = v 0 := by
    intro k
    induction k with
    | zero => intro _; simp
    | succ k ih =>
      intro hk
      rw [← ih (by omega), hkM, ← key (NE - (k + 1)) k (by omega) (Fin.last M)]
      simp
  intro i hi
  have hdm := Nat.div_add_mod i M
  have hlt := Nat.mod_lt i hM
  by_cases hk : i / M < NE
  · have := key (NE - (i / M + 1)) (i / M) (by omega) ⟨i % M, by omega⟩
    simp only at this
    rw [show i / M * M + i % M = i by rw [mul_comm]; exact hdm] at this
    rw [this, ends _ (by omega)]
  · have h1 := hmono (show NE ≤ i / M by omega)
    have h2 : M * (i / M) = i / M * M := mul_comm _ _
    have : i = NE * M := by omega
    rw [this, ends NE le_rfl]

end
end WTM
