import Mathlib.Tactic.Ring
import Mathlib.Tactic.NormNum
import Verif.Props.GacColumn

/-! Property C50: the Jacobian sparsity pattern of the carbon column. -/
set_option autoImplicit false
namespace WTM
open BigOperators

variable {n r z : ℕ}

theorem gacIdx_in (a : Fin (r + 2)) (w : Fin (z + 1)) :
    (a : ℕ) * (z + 1) + (w : ℕ) < (z + 1) * (r + 1 + 1) := by
  have h1 : (a : ℕ) + 1 ≤ r + 2 := a.2
  have h2 := Nat.mul_le_mul_right (z + 1) h1
  have := w.2
  have e : (z + 1) * (r + 1 + 1) = (r + 2) * (z + 1) := by ring
  rw [add_mul, one_mul] at h2
  omega

theorem gacIdx_div (i : Fin n) (a : Fin (r + 2)) (w : Fin (z + 1)) :
    gacIdx i a w / ((z + 1) * (r + 1 + 1)) = i := by
  have e : gacIdx i a w = ((a : ℕ) * (z + 1) + w) + ((z + 1) * (r + 1 + 1)) * i := by
    unfold gacIdx; ring
  rw [e, Nat.add_mul_div_left _ _ (by positivity), Nat.div_eq_of_lt (gacIdx_in a w), zero_add]

theorem gacIdx_mod (i : Fin n) (a : Fin (r + 2)) (w : Fin (z + 1)) :
    gacIdx i a w % ((z + 1) * (r + 1 + 1)) = (a : ℕ) * (z + 1) + w := by
  have e : gacIdx i a w = ((a : ℕ) * (z + 1) + w) + ((z + 1) * (r + 1 + 1)) * i := by
    unfold gacIdx; ring
  rw [e, Nat.add_mul_mod_self_left, Nat.mod_eq_of_lt (gacIdx_in a w)]

theorem ite_iff {p q : Prop} [Decidable p] [Decidable q] (h : p ↔ q) :
    (if p then (1 : ℝ) else 0) = if q then 1 else 0 := by
  by_cases hq : q
  · rw [if_pos hq, if_pos (h.2 hq)]
  · rw [if_neg hq, if_neg (fun hp => hq (h.1 hp))]

/-- Bead rows come before the liquid row of a compound. -/
theorem bead_lt (k : Fin (r + 1)) (w : Fin (z + 1)) : (k : ℕ) * (z + 1) + (w : ℕ) < (r + 1) * (z + 1) := by
  have h2 := Nat.mul_le_mul_right (z + 1) (show (k : ℕ) + 1 ≤ r + 1 from k.2)
  have := w.2
  rw [add_mul, one_mul] at h2
  omega

/-- Bead against bead: marked exactly at the same axial point, for every pair of compounds. -/
theorem spar_bead_bead (i j : Fin n) (k l : Fin (r + 1)) (w y : Fin (z + 1)) :
    sparJac (r + 1) (z + 1) (gacIdx i k.castSucc w) (gacIdx j l.castSucc y) = if w = y then 1 else 0 := by
  unfold sparJac
  simp only [gacIdx_mod, gacIdx_div]
  unfold sparBlock
  simp only [Fin.val_castSucc]
  rw [if_pos ⟨bead_lt k w, bead_lt l y⟩]
  by_cases h : w = y
  · subst h
    rw [if_pos rfl, if_pos]
    have h1 := k.2
    have h2 := l.2
    refine ⟨(l : ℕ) + r - k, by omega, ?_⟩
    obtain ⟨t, ht⟩ : ∃ t, (l : ℕ) + r = k + t := ⟨(l : ℕ) + r - k, by omega⟩
    have e : (l : ℕ) + r - k = t := by omega
    rw [e]
    have : (l : ℕ) * (z + 1) + r * (z + 1) = k * (z + 1) + t * (z + 1) := by
      rw [← add_mul, ht, add_mul]
    have e2 : (r + 1 - 1) = r := rfl
    rw [e2]
    omega
  · rw [if_neg h, if_neg]
    rintro ⟨t, -, ht⟩
    apply h
    have h1 : (((l : ℕ) * (z + 1) + y) + (r + 1 - 1) * (z + 1)) % (z + 1) = y := by
      rw [show ((l : ℕ) * (z + 1) + y) + (r + 1 - 1) * (z + 1) = y + (z + 1) * (l + (r + 1 - 1)) by ring,
        Nat.add_mul_mod_self_left, Nat.mod_eq_of_lt y.2]
    have h2 : (((k : ℕ) * (z + 1) + w) + t * (z + 1)) % (z + 1) = w := by
      rw [show ((k : ℕ) * (z + 1) + w) + t * (z + 1) = w + (z + 1) * (k + t) by ring,
        Nat.add_mul_mod_self_left, Nat.mod_eq_of_lt w.2]
    rw [ht, h2] at h1
    exact Fin.ext h1

/-- Liquid row against bead: the surface point at the same axial point, beyond the inlet. -/
theorem spar_liq_bead (i j : Fin n) (l : Fin (r + 1)) (w y : Fin (z + 1)) :
    sparJac (r + 1) (z + 1) (gacIdx i (Fin.last (r + 1)) w) (gacIdx j l.castSucc y) =
      if l = Fin.last r ∧ w = y ∧ w ≠ 0 then 1 else 0 := by
  unfold sparJac
  simp only [gacIdx_mod, gacIdx_div]
  unfold sparBlock
  simp only [Fin.val_castSucc, Fin.val_last]
  rw [if_neg (by omega), if_pos (bead_lt l y)]
  have e1 : (r + 1) * (z + 1) + (w : ℕ) - (r + 1) * (z + 1) = w := by omega
  have e2 : (r + 1) * (z + 1) - (z + 1) = r * (z + 1) := by
    rw [add_mul, one_mul, Nat.add_sub_cancel]
  have e3 : r + 1 - 1 = r := rfl
  have hw := w.2
  have hy := y.2
  apply ite_iff
  rw [e1, e2, e3]
  refine ⟨fun h => ?_, fun h => ?_⟩
  · obtain ⟨h1, h2⟩ := h
    have hl : (l : ℕ) = r := by
      by_contra hne
      have h3 : (l : ℕ) + 1 ≤ r := by have := l.2; omega
      have h4 := Nat.mul_le_mul_right (z + 1) h3
      rw [add_mul, one_mul] at h4
      omega
    rw [hl] at h1 h2
    refine ⟨Fin.ext hl, Fin.ext (by omega), fun h0 => ?_⟩
    have : (w : ℕ) = 0 := by rw [h0]; rfl
    omega
  · obtain ⟨rfl, rfl, h0⟩ := h
    simp only [Fin.val_last]
    have : (w : ℕ) ≠ 0 := fun h => h0 (Fin.ext h)
    omega

/-- Bead row against liquid: the same compound at the same axial point, for the surface, beyond the inlet. -/
theorem spar_bead_liq (i j : Fin n) (k : Fin (r + 1)) (w y : Fin (z + 1)) :
    sparJac (r + 1) (z + 1) (gacIdx i k.castSucc w) (gacIdx j (Fin.last (r + 1)) y) =
      if i = j ∧ k = Fin.last r ∧ w = y ∧ w ≠ 0 then 1 else 0 := by
  unfold sparJac
  simp only [gacIdx_mod, gacIdx_div]
  unfold sparBlock
  simp only [Fin.val_castSucc, Fin.val_last]
  rw [if_neg (by omega), if_neg (by omega), if_pos (bead_lt k w)]
  have e1 : (r + 1) * (z + 1) + (y : ℕ) - (r + 1) * (z + 1) = y := by omega
  have e2 : (r + 1) * (z + 1) - (z + 1) = r * (z + 1) := by
    rw [add_mul, one_mul, Nat.add_sub_cancel]
  have hw := w.2
  have hy := y.2
  apply ite_iff
  rw [e1, e2]
  refine ⟨fun h => ?_, fun h => ?_⟩
  · obtain ⟨hij, h1, h2, h3⟩ := h
    have hk : (k : ℕ) = r := by
      by_contra hne
      have h3 : (k : ℕ) + 1 ≤ r := by have := k.2; omega
      have h4 := Nat.mul_le_mul_right (z + 1) h3
      rw [add_mul, one_mul] at h4
      omega
    rw [hk] at h1 h2
    refine ⟨Fin.ext (by simpa using hij), Fin.ext hk, Fin.ext (by omega), fun h0 => ?_⟩
    have : (w : ℕ) = 0 := by rw [h0]; rfl
    omega
  · obtain ⟨rfl, rfl, rfl, h0⟩ := h
    simp only [Fin.val_last]
    have : (w : ℕ) ≠ 0 := fun h => h0 (Fin.ext h)
    refine ⟨by simp, by omega, by omega, by omega⟩

/-- Liquid against liquid: the same compound, both beyond the inlet. -/
theorem spar_liq_liq (i j : Fin n) (w y : Fin (z + 1)) :
    sparJac (r + 1) (z + 1) (gacIdx i (Fin.last (r + 1)) w) (gacIdx j (Fin.last (r + 1)) y) =
      if i = j ∧ w ≠ 0 ∧ y ≠ 0 then 1 else 0 := by
  unfold sparJac
  simp only [gacIdx_mod, gacIdx_div]
  unfold sparBlock
  simp only [Fin.val_last]
  rw [if_neg (by omega), if_neg (by omega), if_neg (by omega)]
  have e1 : (r + 1) * (z + 1) + (y : ℕ) - (r + 1) * (z + 1) = y := by omega
  have e2 : (r + 1) * (z + 1) + (w : ℕ) - (r + 1) * (z + 1) = w := by omega
  apply ite_iff
  rw [e1, e2]
  simp only [beq_iff_eq, Fin.ext_iff, Fin.val_zero, ne_eq]

/-- Pore concentrations at an axial point depend on the bead loadings there only. -/
theorem cporeAt_local (D : GacDim n r z) (foul : Fin n → ℝ) {y y' : GacState n r z} {w : Fin (z + 1)}
    {k : Fin (r + 1)} (h : ∀ j, y j k.castSucc w = y' j k.castSucc w) (i : Fin n) :
    cporeAt D foul y i k w = cporeAt D foul y' i k w := by
  unfold cporeAt
  simp only [h]

theorem gacBB_local (D : GacDim n r z) (foul fac : Fin n → ℝ) {y y' : GacState n r z} {w : Fin (z + 1)}
    (h : ∀ j (l : Fin (r + 1)), y j l.castSucc w = y' j l.castSucc w) (i : Fin n) (k : Fin (r + 1)) :
    gacBB D foul fac y i k w = gacBB D foul fac y' i k w := by
  unfold gacBB
  simp only [h, fun l => cporeAt_local D foul (fun j => h j l) i]

/-- C50. If the pattern entry for (equation, unknown) is 0, changing that unknown alone never changes that
rate, for every state, influent and fouling. -/
theorem c50_safe (D : GacDim n r z) (cinfl foul fac : Fin n → ℝ) {i j : Fin n} {a b : Fin (r + 2)}
    {w v : Fin (z + 1)} (h0 : sparJac (r + 1) (z + 1) (gacIdx i a w) (gacIdx j b v) = 0)
    {y y' : GacState n r z}
    (hyy : ∀ j' b' v', ¬ (j' = j ∧ b' = b ∧ v' = v) → y j' b' v' = y' j' b' v') :
    gacRhs D cinfl foul fac y i a w = gacRhs D cinfl foul fac y' i a w := by
  revert h0
  refine Fin.lastCases (fun h0 => ?_) (fun k h0 => ?_) a
  · -- liquid row
    rw [gacRhs_liq, gacRhs_liq]
    unfold gacLiq
    by_cases hw : w = 0
    · rw [if_pos hw, if_pos hw]
    rw [if_neg hw, if_neg hw]
    unfold gacCbs
    rw [if_neg hw, if_neg hw]
    have hcp : cporeAt D foul y i (Fin.last r) w = cporeAt D foul y' i (Fin.last r) w := by
      refine cporeAt_local D foul (fun j' => hyy _ _ _ ?_) i
      rintro ⟨rfl, rfl, rfl⟩
      rw [spar_liq_bead, if_pos ⟨rfl, rfl, hw⟩] at h0
      exact one_ne_zero h0
    have hl : ∀ v' : Fin z, y i (Fin.last (r + 1)) v'.succ = y' i (Fin.last (r + 1)) v'.succ := by
      intro v'
      refine hyy _ _ _ ?_
      rintro ⟨rfl, rfl, rfl⟩
      rw [spar_liq_liq, if_pos ⟨rfl, hw, Fin.succ_ne_zero v'⟩] at h0
      exact one_ne_zero h0
    have hlw : y i (Fin.last (r + 1)) w = y' i (Fin.last (r + 1)) w := by
      obtain ⟨w', rfl⟩ := Fin.exists_succ_eq.2 hw
      exact hl w'
    rw [hcp, hlw]
    simp only [hl]
  · -- bead row
    rw [gacRhs_bead, gacRhs_bead]
    have hb : ∀ j' (l : Fin (r + 1)), y j' l.castSucc w = y' j' l.castSucc w := by
      intro j' l
      refine hyy _ _ _ ?_
      rintro ⟨rfl, rfl, rfl⟩
      rw [spar_bead_bead, if_pos rfl] at h0
      exact one_ne_zero h0
    unfold gacBead
    by_cases hk : k = Fin.last r
    · rw [if_pos hk, if_pos hk]
      have hww : gacWW D foul fac y i w = gacWW D foul fac y' i w := by
        unfold gacWW
        simp only [gacBB_local D foul fac hb]
      have hcp := cporeAt_local D foul (fun j => hb j (Fin.last r)) i
      by_cases hw : w = 0
      · subst hw
        rw [if_pos rfl, if_pos rfl, hww, hcp]
      · rw [if_neg hw, if_neg hw, hww]
        unfold gacCbs
        rw [if_neg hw, if_neg hw, hcp]
        have : y i (Fin.last (r + 1)) w = y' i (Fin.last (r + 1)) w := by
          refine hyy _ _ _ ?_
          rintro ⟨rfl, rfl, rfl⟩
          rw [spar_bead_liq, if_pos ⟨rfl, hk, rfl, hw⟩] at h0
          exact one_ne_zero h0
        rw [this]
    · rw [if_neg hk, if_neg hk]
      exact gacBB_local D foul fac hb i k

/-- C50. Positions of state entries are below the number of equations and distinct entries have distinct
positions. -/
theorem c50_positions (i : Fin n) (a : Fin (r + 2)) (w : Fin (z + 1)) :
    gacIdx i a w < n * ((r + 2) * (z + 1)) := by
  have h1 := gacIdx_in a w
  have h2 := Nat.mul_le_mul_right ((r + 2) * (z + 1)) (show (i : ℕ) + 1 ≤ n from i.2)
  have e : (z + 1) * (r + 1 + 1) = (r + 2) * (z + 1) := by ring
  unfold gacIdx
  rw [add_mul, one_mul] at h2
  omega

theorem c50_injective {i j : Fin n} {a b : Fin (r + 2)} {w v : Fin (z + 1)}
    (h : gacIdx i a w = gacIdx j b v) : i = j ∧ a = b ∧ w = v := by
  have h1 := gacIdx_div i a w
  have h2 := gacIdx_mod i a w
  rw [h, gacIdx_div] at h1
  rw [h, gacIdx_mod] at h2
  have hw := w.2
  have hv := v.2
  have hwv : (w : ℕ) = v := by
    have := congrArg (· % (z + 1)) h2
    simpa [Nat.add_mod, Nat.mod_eq_of_lt hw, Nat.mod_eq_of_lt hv] using this.symm
  refine ⟨(Fin.ext h1).symm, Fin.ext ?_, Fin.ext hwv⟩
  have : (b : ℕ) * (z + 1) = a * (z + 1) := by omega
  exact (Nat.eq_of_mul_eq_mul_right (by omega) this).symm

/-- Unmarked entries exist: other axial points, and the liquid of another compound. -/
example : sparJac (1 + 1) (1 + 1) (gacIdx (n := 2) (r := 1) (z := 1) 0 (Fin.castSucc 0) 1)
      (gacIdx (n := 2) (r := 1) (z := 1) 1 (Fin.castSucc 0) 0) = 0 ∧
    sparJac (1 + 1) (1 + 1) (gacIdx (n := 2) (r := 1) (z := 1) 0 (Fin.last 2) 1)
      (gacIdx (n := 2) (r := 1) (z := 1) 1 (Fin.last 2) 1) = 0 := by
  rw [spar_bead_bead, spar_liq_liq]
  exact ⟨if_neg (by decide), if_neg (by decide)⟩

end WTM
