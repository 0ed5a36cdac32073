import Mathlib.Tactic.Ring
import Mathlib.Data.Nat.ModEq
import Verif.Props.IexColumn

/-! Property C34: the Jacobian sparsity pattern of the ion-exchange column models. -/
set_option autoImplicit false
namespace WTM
open BigOperators

variable {r p z : ℕ}

/-- Positions are below the number of equations. -/
theorem flatIdx_lt (a : Fin (r + 2)) (i : Fin (p + 1)) (w : Fin (z + 1)) :
    flatIdx a i w < (r + 2) * (p + 1) * (z + 1) := by
  unfold flatIdx
  have h1 : (i : ℕ) * (z + 1) + w < (p + 1) * (z + 1) := by
    have : (i : ℕ) + 1 ≤ p + 1 := i.2
    have h2 := Nat.mul_le_mul_right (z + 1) this
    have := w.2
    rw [add_mul, one_mul] at h2
    omega
  have h3 : (a : ℕ) + 1 ≤ r + 2 := a.2
  have h4 := Nat.mul_le_mul_right ((p + 1) * (z + 1)) h3
  rw [add_mul, one_mul] at h4
  rw [mul_assoc]
  omega

theorem flatIdx_mod (a : Fin (r + 2)) (i : Fin (p + 1)) (w : Fin (z + 1)) :
    flatIdx a i w % (z + 1) = w := by
  unfold flatIdx
  rw [show (a : ℕ) * ((p + 1) * (z + 1)) + (i : ℕ) * (z + 1) + w =
    w + (z + 1) * (a * (p + 1) + i) by ring, Nat.add_mul_mod_self_left, Nat.mod_eq_of_lt w.2]

theorem flatIdx_liq (a : Fin (r + 2)) (i : Fin (p + 1)) (w : Fin (z + 1)) :
    flatIdx a i w < (p + 1) * (z + 1) ↔ a = 0 := by
  have h1 : (i : ℕ) * (z + 1) + w < (p + 1) * (z + 1) := by
    have : (i : ℕ) + 1 ≤ p + 1 := i.2
    have h2 := Nat.mul_le_mul_right (z + 1) this
    have := w.2
    rw [add_mul, one_mul] at h2
    omega
  unfold flatIdx
  constructor
  · intro h
    by_contra ha
    have : 1 ≤ (a : ℕ) := Nat.one_le_iff_ne_zero.2 (fun h' => ha (Fin.ext h'))
    have := Nat.mul_le_mul_right ((p + 1) * (z + 1)) this
    omega
  · rintro rfl
    simpa using h1

theorem flatIdx_surf (a : Fin (r + 2)) (i : Fin (p + 1)) (w : Fin (z + 1)) :
    (r + 1) * ((p + 1) * (z + 1)) ≤ flatIdx a i w ↔ a = Fin.last (r + 1) := by
  have h1 : (i : ℕ) * (z + 1) + w < (p + 1) * (z + 1) := by
    have : (i : ℕ) + 1 ≤ p + 1 := i.2
    have h2 := Nat.mul_le_mul_right (z + 1) this
    have := w.2
    rw [add_mul, one_mul] at h2
    omega
  unfold flatIdx
  constructor
  · intro h
    by_contra ha
    have h3 : (a : ℕ) + 1 ≤ r + 1 := by
      have := a.2
      have : (a : ℕ) ≠ r + 1 := fun h' => ha (Fin.ext h')
      omega
    have := Nat.mul_le_mul_right ((p + 1) * (z + 1)) h3
    rw [add_mul, one_mul] at this
    omega
  · rintro rfl
    simp only [Fin.val_last]
    omega

/-- Below the liquid rows, the pattern is 1 exactly when the two positions differ by a multiple of `nz`. -/
theorem jac_bead {nr NION nz i j : ℕ} (hnz : 0 < nz) (hi : NION * nz ≤ i)
    (hin : i < (nr + 1) * NION * nz) (hjn : j < (nr + 1) * NION * nz) :
    jacStruc nr NION nz i j = if i % nz = j % nz then 1 else 0 := by
  unfold jacStruc
  simp only
  rw [if_neg (by omega), if_neg (by omega), if_neg (by omega)]
  have hsum : ∀ a b : ℕ, a < (nr + 1) * NION * nz → b < (nr + 1) * NION * nz →
      ∑ t ∈ Finset.range (NION * (1 + nr) - 1), (if b = a + nz * (t + 1) then (1 : ℝ) else 0) =
      if a < b ∧ a % nz = b % nz then 1 else 0 := by
    intro a b ha hb
    by_cases h : a < b ∧ a % nz = b % nz
    · rw [if_pos h]
      obtain ⟨m, hm⟩ : nz ∣ b - a := (Nat.modEq_iff_dvd' h.1.le).1 h.2
      have hm1 : 1 ≤ m := by
        rcases Nat.eq_zero_or_pos m with rfl | h'
        · simp at hm; omega
        · exact h'
      have hm2 : m < NION * (1 + nr) := by
        by_contra hcon
        push Not at hcon
        have := Nat.mul_le_mul_left nz hcon
        have e : nz * (NION * (1 + nr)) = (nr + 1) * NION * nz := by ring
        omega
      rw [Finset.sum_eq_single (m - 1)]
      · rw [if_pos]
        rw [Nat.sub_add_cancel hm1]; omega
      · intro t _ ht
        rw [if_neg]
        intro hbt
        apply ht
        have : nz * (t + 1) = nz * m := by omega
        have := Nat.eq_of_mul_eq_mul_left hnz this
        omega
      · intro hnot
        exact absurd (Finset.mem_range.2 (by omega)) hnot
    · rw [if_neg h]
      apply Finset.sum_eq_zero
      intro t _
      rw [if_neg]
      intro hbt
      apply h
      have : 0 < nz * (t + 1) := Nat.mul_pos hnz (by omega)
      exact ⟨by omega, by rw [hbt, Nat.add_mul_mod_self_left]⟩
  rw [Finset.sum_add_distrib, hsum i j hin hjn, hsum j i hjn hin]
  rcases lt_trichotomy i j with h | h | h
  · rw [if_neg (by omega)]
    by_cases e : i % nz = j % nz
    · rw [if_pos ⟨h, e⟩, if_neg (by omega), if_pos e]; norm_num
    · rw [if_neg (fun h' => e h'.2), if_neg (by omega), if_neg e]; norm_num
  · subst h
    simp [hi]
  · rw [if_neg (by omega)]
    by_cases e : i % nz = j % nz
    · rw [if_neg (by omega), if_pos ⟨h, e.symm⟩, if_pos e]; norm_num
    · rw [if_neg (by omega), if_neg (fun h' => e h'.2.symm), if_neg e]; norm_num

/-- The pattern in terms of tensor positions. -/
theorem jac_pattern (a b : Fin (r + 2)) (i j : Fin (p + 1)) (w y : Fin (z + 1)) :
    jacStruc (r + 1) (p + 1) (z + 1) (flatIdx a i w) (flatIdx b j y) =
      if a = 0 then (if b = 0 ∨ b = Fin.last (r + 1) then 1 else 0) else if w = y then 1 else 0 := by
  by_cases ha : a = 0
  · have h1 := (flatIdx_liq a i w).2 ha
    rw [if_pos ha]
    unfold jacStruc
    simp only [h1, true_and, if_true]
    by_cases hb : b = Fin.last (r + 1)
    · rw [if_pos ((flatIdx_surf b j y).2 hb), if_pos (Or.inr hb)]
    · rw [if_neg (fun h => hb ((flatIdx_surf b j y).1 h))]
      by_cases hb0 : b = 0
      · rw [if_pos ((flatIdx_liq b j y).2 hb0), if_pos (Or.inl hb0)]
      · rw [if_neg (fun h => hb0 ((flatIdx_liq b j y).1 h)), if_neg (by tauto)]
  · rw [if_neg ha, jac_bead (by omega) (not_lt.1 (fun h => ha ((flatIdx_liq a i w).1 h)))
      (flatIdx_lt a i w) (flatIdx_lt b j y), flatIdx_mod, flatIdx_mod]
    simp only [Fin.ext_iff]

theorem flux_local (m : ColModel) (P : ColParams r p z) {u u' : ColState r p z} {w : Fin (z + 1)}
    (h0 : ∀ i, u 0 i w = u' 0 i w) (hs : ∀ i, u (Fin.last (r + 1)) i w = u' (Fin.last (r + 1)) i w)
    (i : Fin (p + 1)) : m.flux P u i w = m.flux P u' i w := by
  unfold ColModel.flux
  simp only [h0, hs]

theorem bead_local (m : ColModel) (P : ColParams r p z) (tH : ℝ) {u u' : ColState r p z}
    {w : Fin (z + 1)} (h : ∀ b i, u b i w = u' b i w) (k : Fin (r + 1)) (i : Fin (p + 1)) :
    m.bead P tH u k i w = m.bead P tH u' k i w := by
  cases m
  · simp only [ColModel.bead, hsdmBead, h]
  · simp only [ColModel.bead, psdmBead, poreConc, h]

/-- C34. If the pattern entry for (equation, unknown) is 0, changing that unknown alone never changes
that rate: every real dependency is marked. -/
theorem c34_safe (m : ColModel) (P : ColParams r p z) (tH : ℝ) (cin : Fin (p + 1) → ℝ)
    {a b : Fin (r + 2)} {i j : Fin (p + 1)} {w y : Fin (z + 1)}
    (h0 : jacStruc (r + 1) (p + 1) (z + 1) (flatIdx a i w) (flatIdx b j y) = 0)
    {u u' : ColState r p z} (huu : ∀ b' j' y', ¬ (b' = b ∧ j' = j ∧ y' = y) → u b' j' y' = u' b' j' y') :
    m.rhs P tH cin u a i w = m.rhs P tH cin u' a i w := by
  rw [jac_pattern] at h0
  have hs : ∀ b' j' y', ¬ (b' = b ∧ j' = j ∧ y' = y) → setInlet u cin b' j' y' = setInlet u' cin b' j' y' := by
    intro b' j' y' hne
    unfold setInlet
    split
    · rfl
    · exact huu b' j' y' hne
  rw [rhs_eq, rhs_eq]
  revert h0
  refine Fin.cases (fun h0 => ?_) (fun k h0 => ?_) a
  · rw [if_pos rfl] at h0
    have hb : b ≠ 0 ∧ b ≠ Fin.last (r + 1) := by
      by_contra hcon
      rw [if_pos (by tauto)] at h0
      exact one_ne_zero h0
    have hl : ∀ i w, setInlet u cin 0 i w = setInlet u' cin 0 i w := fun i w =>
      hs 0 i w (fun h => hb.1 h.1.symm)
    have hl' : setInlet u cin 0 = setInlet u' cin 0 := by funext i w; exact hl i w
    have hsf : ∀ i w, setInlet u cin (Fin.last (r + 1)) i w = setInlet u' cin (Fin.last (r + 1)) i w :=
      fun i w => hs _ i w (fun h => hb.2 h.1.symm)
    simp only [assemble_liq, liqRate]
    rw [hl', flux_local m P (fun i => hl i w) (fun i => hsf i w)]
  · rw [if_neg (Fin.succ_ne_zero k)] at h0
    have hw : w ≠ y := by
      intro h; rw [if_pos h] at h0; exact one_ne_zero h0
    have hall : ∀ b' i, setInlet u cin b' i w = setInlet u' cin b' i w := fun b' i =>
      hs b' i w (fun h => hw h.2.2)
    simp only [assemble_bead]
    rw [flux_local m P (hall 0) (hall _)]
    simp only [bead_local m P tH hall]

/-- C34. Every entry is 0 or 1, over the full square of flattened positions, and the positions of state
entries are below `(nr+1)*NION*nz`. -/
theorem c34_entries {nr NION nz : ℕ} (hnz : 0 < nz) {i j : ℕ}
    (hi : i < (nr + 1) * NION * nz) (hj : j < (nr + 1) * NION * nz) :
    jacStruc nr NION nz i j = 0 ∨ jacStruc nr NION nz i j = 1 := by
  by_cases h : NION * nz ≤ i
  · rw [jac_bead hnz h hi hj]
    split <;> simp
  · unfold jacStruc
    simp only
    split
    · simp
    · split
      · simp
      · rw [if_pos (by omega)]; simp

/-- Both kinds of unmarked entries occur: an interior bead point is not marked in a liquid row, another
axial point is not marked in a bead row. -/
example : jacStruc (1 + 1) (1 + 1) (1 + 1) (flatIdx (r := 1) (p := 1) (z := 1) 0 0 1)
      (flatIdx (r := 1) (p := 1) (z := 1) 1 0 1) = 0 ∧
    jacStruc (1 + 1) (1 + 1) (1 + 1) (flatIdx (r := 1) (p := 1) (z := 1) 1 0 1)
      (flatIdx (r := 1) (p := 1) (z := 1) 0 1 0) = 0 := by
  rw [jac_pattern, jac_pattern]
  exact ⟨by rw [if_pos rfl, if_neg (by decide)], by rw [if_neg (by decide), if_neg (by decide)]⟩

end WTM
